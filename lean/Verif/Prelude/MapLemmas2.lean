import Verif.Prelude.MapLemmas

namespace Verif.Prelude

variable {K V : Type}

/-! ### Normalisation -/

open Classical in
theorem getSingleEntry_ne {h : Hamt K V} {e : Entry K V} (he : e ≠ .none) (is : List (Fin 32)) :
    getSingleEntry h is e = if ∀ i ∈ is, h i = .none then e else .none := by
  induction is with
  | nil => simp [getSingleEntry]
  | cons i is ih =>
    rw [getSingleEntry]
    cases hi : h i with
    | none =>
      simp only [ih, List.mem_cons, forall_eq_or_imp, hi, true_and]
    | kv k v =>
      cases e with
      | none => exact absurd rfl he
      | kv _ _ => simp [hi]
      | hamt _ => simp [hi]
    | hamt g =>
      cases e with
      | none => exact absurd rfl he
      | kv _ _ => simp [hi]
      | hamt _ => simp [hi]

/-- `getSingleEntry` returns the only entry there is, if there is exactly one. -/
theorem getSingleEntry_spec (h : Hamt K V) (is : List (Fin 32)) (hn : is.Nodup) :
    (∃ j ∈ is, h j ≠ .none ∧ (∀ i ∈ is, i ≠ j → h i = .none) ∧ getSingleEntry h is .none = h j) ∨
    ((∀ j ∈ is, h j ≠ .none → ∃ i ∈ is, i ≠ j ∧ h i ≠ .none) ∧ getSingleEntry h is .none = .none) := by
  classical
  induction is with
  | nil => right; simp [getSingleEntry]
  | cons a is ih =>
    rw [List.nodup_cons] at hn
    by_cases ha : h a = .none
    · have hstep : getSingleEntry h (a :: is) .none = getSingleEntry h is .none := by
        rw [getSingleEntry, ha]
      rw [hstep]
      rcases ih hn.2 with ⟨j, hj, hne, hall, he⟩ | ⟨hall, he⟩
      · left
        refine ⟨j, List.mem_cons_of_mem _ hj, hne, ?_, he⟩
        intro i hi hij
        rcases List.mem_cons.1 hi with rfl | hi
        · exact ha
        · exact hall i hi hij
      · right
        refine ⟨?_, he⟩
        intro j hj hne
        rcases List.mem_cons.1 hj with rfl | hj
        · exact absurd ha hne
        · obtain ⟨i, hi, h1, h2⟩ := hall j hj hne
          exact ⟨i, List.mem_cons_of_mem _ hi, h1, h2⟩
    · have hstep : getSingleEntry h (a :: is) .none = getSingleEntry h is (h a) := by
        rw [getSingleEntry]
        cases hh : h a with
        | none => exact absurd hh ha
        | kv _ _ => rfl
        | hamt _ => rfl
      rw [hstep, getSingleEntry_ne ha]
      by_cases hall : ∀ i ∈ is, h i = .none
      · left
        rw [if_pos hall]
        refine ⟨a, List.mem_cons_self, ha, ?_, rfl⟩
        intro i hi hij
        rcases List.mem_cons.1 hi with rfl | hi
        · exact absurd rfl hij
        · exact hall i hi
      · right
        rw [if_neg hall]
        refine ⟨?_, rfl⟩
        push Not at hall
        obtain ⟨i, hi, hne⟩ := hall
        intro j hj hjne
        rcases List.mem_cons.1 hj with rfl | hj
        · exact ⟨i, List.mem_cons_of_mem _ hi, fun e => hn.1 (e ▸ hi), hne⟩
        · exact ⟨a, List.mem_cons_self, fun e => hn.1 (e ▸ hj), ha⟩

theorem normalizeHamt_spec (h : Hamt K V) :
    (∃ j, h j ≠ .none ∧ (∀ i, i ≠ j → h i = .none) ∧ normalizeHamt h = h j) ∨
    ((∀ j, h j ≠ .none → ∃ i, i ≠ j ∧ h i ≠ .none) ∧ normalizeHamt h = .hamt h) := by
  unfold normalizeHamt
  rcases getSingleEntry_spec h (List.finRange 32) (List.nodup_finRange 32) with
    ⟨j, _, hne, hall, he⟩ | ⟨hall, he⟩
  · left
    refine ⟨j, hne, fun i hi => hall i (List.mem_finRange i) hi, ?_⟩
    rw [he]
    cases hh : h j with
    | none => exact absurd hh hne
    | kv _ _ => rfl
    | hamt _ => rfl
  · right
    refine ⟨fun j hj => ?_, by rw [he]⟩
    obtain ⟨i, _, h1, h2⟩ := hall j (List.mem_finRange j) hj
    exact ⟨i, h1, h2⟩

/-! ### Delete -/

/-- The keys `l`, all on the path of `key` up to level `d`, may be left behind when `key` is deleted
without `normalizeHamt` moving a whole subtree: wherever two of them share a longer path with `key`, they do
not all share the next index too. -/
def SafeFrom (ctx : Ctx K V) (key : K) (d : Nat) (l : List (K × V)) : Prop :=
  ∀ d', d ≤ d' →
    (∃ p ∈ l, ∃ q ∈ l, ctx.equalKeys p.1 q.1 = false ∧
      (ctx.equalKeys p.1 key = false ∧ SamePath ctx (d' + 1) p.1 key) ∧
      (ctx.equalKeys q.1 key = false ∧ SamePath ctx (d' + 1) q.1 key)) →
    ∃ p ∈ l, ∃ q ∈ l,
      (ctx.equalKeys p.1 key = false ∧ SamePath ctx (d' + 1) p.1 key) ∧
      (ctx.equalKeys q.1 key = false ∧ SamePath ctx (d' + 1) q.1 key) ∧
      hamtIndex ctx p.1 1 (d' + 1) ≠ hamtIndex ctx q.1 1 (d' + 1)

structure DelSpec (ctx : Ctx K V) (d : Nat) (e : Entry K V) (key : K) (e' : Entry K V) (b : Bool) : Prop where
  wf : WF ctx d e'
  mem : ∀ p, p ∈ entries e' ↔ p ∈ entries e ∧ ctx.equalKeys p.1 key = false
  length : (entries e').length + (if b then 1 else 0) = (entries e).length
  found : b = true ↔ ∃ p ∈ entries e, ctx.equalKeys p.1 key = true

theorem WF.length_pos {ctx : Ctx K V} {d : Nat} {e : Entry K V} (hw : WF ctx d e) (he : e ≠ .none) :
    1 ≤ (entries e).length := by
  cases e with
  | none => exact absurd rfl he
  | kv _ _ => simp [entries]
  | hamt h => rw [WF_hamt] at hw; rw [entries_hamt]; omega

theorem entries_le_hentries (h : Hamt K V) (i : Fin 32) : (entries (h i)).length ≤ (hentries h).length := by
  have := length_setEntry h i .none
  simp only [entries, List.length_nil] at this
  omega

theorem hentries_single {h : Hamt K V} {j : Fin 32} (hj : ∀ i, i ≠ j → h i = .none) :
    (∀ p, p ∈ hentries h ↔ p ∈ entries (h j)) ∧ (hentries h).length = (entries (h j)).length := by
  constructor
  · intro p
    rw [mem_hentries]
    constructor
    · rintro ⟨i, hi⟩
      by_cases hij : i = j
      · exact hij ▸ hi
      · rw [hj i hij] at hi; simp [entries] at hi
    · exact fun hp => ⟨j, hp⟩
  · have h1 := length_setEntry h j .none
    have h2 : hentries (setEntry h j .none) = [] := by
      have : setEntry h j .none = newHamt := by
        funext i
        by_cases hij : i = j
        · subst hij; simp [setEntry, newHamt]
        · simp [setEntry, newHamt, hij, hj i hij]
      rw [this, hentries_newHamt]
    rw [h2] at h1
    simp only [entries, List.length_nil] at h1
    omega

theorem hentries_two {ctx : Ctx K V} {d : Nat} {h : Hamt K V} (hw : HWF ctx d h) {i j : Fin 32}
    (hij : i ≠ j) (hi : h i ≠ .none) (hj : h j ≠ .none) : 2 ≤ (hentries h).length := by
  have h1 := length_setEntry h i .none
  have h2 := entries_le_hentries (setEntry h i .none) j
  rw [setEntry_ne _ _ (Ne.symm hij)] at h2
  have := (hw i).2.length_pos hi
  have := (hw j).2.length_pos hj
  simp only [entries, List.length_nil] at h1
  omega

theorem exists_two {ctx : Ctx K V} {l : List (K × V)} (h2 : 2 ≤ l.length)
    (hp : l.Pairwise fun p q => ctx.equalKeys p.1 q.1 = false) :
    ∃ p ∈ l, ∃ q ∈ l, ctx.equalKeys p.1 q.1 = false := by
  match l, h2, hp with
  | a :: b :: l, _, hp =>
    rw [List.pairwise_cons] at hp
    exact ⟨a, by simp, b, by simp, hp.1 b (by simp)⟩

theorem putBack_eq (h : Hamt K V) (i : Fin 32) (o : Option (Entry K V)) :
    putBack h i o = setEntry h i (o.getD (h i)) := by
  cases o with
  | none =>
    funext j
    by_cases hj : j = i
    · subst hj; simp [setEntry, putBack]
    · simp [setEntry, hj, putBack]
  | some e => rfl

theorem deleteFromEntry_spec {ctx : Ctx K V} (law : ctx.Lawful) (key : K) (e : Entry K V) :
    ∀ {d : Nat}, WF ctx d e → (∀ p ∈ entries e, SamePath ctx (d + 1) p.1 key) →
      SafeFrom ctx key d (entries e) →
      DelSpec ctx d e key ((deleteFromEntry ctx key e 1 d).1.getD e) (deleteFromEntry ctx key e 1 d).2 := by
  induction e with
  | none =>
    intro d _ _ _
    simp only [deleteFromEntry, Option.getD_none]
    exact ⟨trivial, by simp [entries], by simp [entries], by simp [entries]⟩
  | kv k v =>
    intro d _ _ _
    simp only [deleteFromEntry]
    by_cases hk : ctx.equalKeys k key = true
    · simp only [hk, if_true, Option.getD_some]
      refine ⟨trivial, ?_, by simp [entries], by simp [entries, hk]⟩
      intro p
      simp only [entries, List.not_mem_nil, List.mem_singleton, false_iff, not_and]
      rintro rfl
      simpa using hk
    · simp only [hk]
      refine ⟨trivial, ?_, by simp [entries], by simp [entries, hk]⟩
      intro p
      simp only [Bool.false_eq_true, if_false, Option.getD_none, entries, List.mem_singleton]
      constructor
      · rintro rfl; exact ⟨rfl, by simpa using hk⟩
      · exact fun h => h.1
  | hamt f ih =>
    intro d hw hpath hsafe
    rw [WF_hamt] at hw
    obtain ⟨hd, h2, hw⟩ := hw
    rw [entries_hamt] at hpath hsafe
    simp only [deleteFromEntry, nextLevel_of_le hd, Option.getD_some]
    generalize hg : hamtIndex ctx key 1 (d + 1) = i
    have hmemi : ∀ p ∈ hentries f, hamtIndex ctx p.1 1 (d + 1) = i → p ∈ entries (f i) := by
      intro p hp hpi
      have := hw.mem_index.1 hp
      rwa [hpi] at this
    -- the child
    have ihi := ih i (d := d + 1) (hw i).2
      (by
        intro p hp
        exact (hpath p (mem_hentries.2 ⟨i, hp⟩)).succ (by rw [(hw i).1 p hp, hg]))
      (by
        intro d' hd' hex
        obtain ⟨p, hp, q, hq, hpq, hp', hq'⟩ := hex
        obtain ⟨p, hp, q, hq, hp', hq', hne⟩ := hsafe d' (by omega)
          ⟨p, mem_hentries.2 ⟨i, hp⟩, q, mem_hentries.2 ⟨i, hq⟩, hpq, hp', hq'⟩
        refine ⟨p, ?_, q, ?_, hp', hq', hne⟩
        · apply hmemi p hp
          rw [hp'.2 (d + 1) (by omega) (by omega), hg]
        · apply hmemi q hq
          rw [hq'.2 (d + 1) (by omega) (by omega), hg])
    generalize hu : deleteFromEntry ctx key (f i) 1 (d + 1) = u at ihi
    -- the updated node
    rw [putBack_eq]
    generalize he' : u.1.getD (f i) = e' at ihi
    generalize hh' : setEntry f i e' = h'
    have hother : ∀ j, j ≠ i → ∀ p ∈ entries (f j), ctx.equalKeys p.1 key = false := by
      intro j hj p hp
      rw [Bool.eq_false_iff]
      intro hk
      apply hj
      rw [← (hw j).1 p hp, ← hg]
      exact index_congr law hk 1 (d + 1)
    have hwf' : HWF ctx (d + 1) h' := by
      rw [← hh']
      refine hw.setEntry ?_ ihi.wf
      intro p hp
      exact (hw i).1 p ((ihi.mem p).1 hp).1
    have hmem' : ∀ p, p ∈ hentries h' ↔ p ∈ hentries f ∧ ctx.equalKeys p.1 key = false := by
      intro p
      rw [← hh', mem_hentries_setEntry, ihi.mem, mem_hentries]
      constructor
      · rintro (⟨hp, hk⟩ | ⟨j, hj, hp⟩)
        · exact ⟨⟨i, hp⟩, hk⟩
        · exact ⟨⟨j, hp⟩, hother j hj p hp⟩
      · rintro ⟨⟨j, hp⟩, hk⟩
        by_cases hj : j = i
        · subst hj; exact Or.inl ⟨hp, hk⟩
        · exact Or.inr ⟨j, hj, hp⟩
    have hlen' : (hentries h').length + (if u.2 then 1 else 0) = (hentries f).length := by
      have := length_setEntry f i e'
      rw [hh'] at this
      have := ihi.length
      omega
    have hfound : u.2 = true ↔ ∃ p ∈ hentries f, ctx.equalKeys p.1 key = true := by
      rw [ihi.found]
      constructor
      · rintro ⟨p, hp, hk⟩; exact ⟨p, mem_hentries.2 ⟨i, hp⟩, hk⟩
      · rintro ⟨p, hp, hk⟩
        refine ⟨p, ?_, hk⟩
        apply hmemi p hp
        rw [index_congr law hk, hg]
    have hpos : 1 ≤ (hentries h').length := by
      have : (if u.2 = true then 1 else 0) ≤ 1 := by split <;> omega
      omega
    rcases normalizeHamt_spec h' with ⟨j, hne, hall, hn⟩ | ⟨hall, hn⟩
    · obtain ⟨hm, hl⟩ := hentries_single hall
      rw [hn]
      refine ⟨?_, ?_, ?_, ?_⟩
      · cases hj : h' j with
        | none => trivial
        | kv _ _ => trivial
        | hamt g =>
          exfalso
          have hwg := (hwf' j).2
          rw [hj, WF_hamt] at hwg
          have hpair := HWF.pairwise law hwg.2.2
          obtain ⟨p, hp, q, hq, hpq⟩ := exists_two hwg.2.1 hpair
          have hin : ∀ p ∈ hentries g, p ∈ hentries h' := by
            intro p hp; rw [hm, hj, entries_hamt]; exact hp
          have hp1 := (hmem' p).1 (hin p hp)
          have hq1 := (hmem' q).1 (hin q hq)
          obtain ⟨p, hp, q, hq, hp', hq', hne'⟩ := hsafe d (Nat.le_refl _)
            ⟨p, hp1.1, q, hq1.1, hpq, ⟨hp1.2, hpath p hp1.1⟩, ⟨hq1.2, hpath q hq1.1⟩⟩
          apply hne'
          have a1 := (hm p).1 ((hmem' p).2 ⟨hp, hp'.1⟩)
          have a2 := (hm q).1 ((hmem' q).2 ⟨hq, hq'.1⟩)
          rw [(hwf' j).1 p a1, (hwf' j).1 q a2]
      · intro p
        rw [← hm, hmem', entries_hamt]
      · rw [← hl, entries_hamt]; exact hlen'
      · rw [entries_hamt]; exact hfound
    · rw [hn]
      refine ⟨?_, ?_, ?_, ?_⟩
      · rw [WF_hamt]
        refine ⟨hd, ?_, hwf'⟩
        obtain ⟨p, hp⟩ := List.exists_mem_of_length_pos (by omega : 0 < (hentries h').length)
        obtain ⟨j, hj⟩ := mem_hentries.1 hp
        have hjn : h' j ≠ .none := by
          intro hc
          rw [hc] at hj
          simp [entries] at hj
        obtain ⟨i', hij, hi'⟩ := hall j hjn
        exact hentries_two hwf' hij hi' hjn
      · intro p; rw [entries_hamt, entries_hamt]; exact hmem' p
      · rw [entries_hamt, entries_hamt]; exact hlen'
      · rw [entries_hamt]; exact hfound

/-! ### Equality -/

theorem andThen_eq_true {b : Option Bool} {r : Unit → Option Bool} :
    andThen b r = some true ↔ b = some true ∧ r () = some true := by
  unfold andThen
  split <;> simp_all

theorem foldr_andThen_true {g : Fin 32 → Option Bool} (is : List (Fin 32)) :
    is.foldr (fun i r => andThen (g i) fun _ => r) (some true) = some true ↔ ∀ i ∈ is, g i = some true := by
  induction is with
  | nil => simp
  | cons a is ih => simp [andThen_eq_true, ih]

/-- Both contain the same keys, and values related by `R`. -/
def SameContents (ctx : Ctx K V) (R : V → V → Prop) (l1 l2 : List (K × V)) : Prop :=
  (∀ p ∈ l1, ∃ q ∈ l2, ctx.equalKeys p.1 q.1 = true ∧ R p.2 q.2) ∧
  (∀ q ∈ l2, ∃ p ∈ l1, ctx.equalKeys p.1 q.1 = true)

theorem equalEntries_iff {ctx : Ctx K V} (law : ctx.Lawful) (e1 : Entry K V) :
    ∀ {d : Nat} (e2 : Entry K V), WF ctx d e1 → WF ctx d e2 →
      (equalEntries (fun a b => some (ctx.equalKeys a b)) (fun a b => some (ctx.equalValues a b)) e1 e2 =
        some true ↔ SameContents ctx (fun a b => ctx.equalValues a b = true) (entries e1) (entries e2)) := by
  induction e1 with
  | none =>
    intro d e2 _ hw2
    cases e2 with
    | none => simp [equalEntries, SameContents, entries]
    | kv k v => simp [equalEntries, SameContents, entries]
    | hamt h =>
      simp only [equalEntries, SameContents]
      rw [WF_hamt] at hw2
      obtain ⟨p, hp⟩ := List.exists_mem_of_length_pos (by omega : 0 < (hentries h).length)
      simp only [entries_hamt]
      constructor
      · intro h; simp at h
      · rintro ⟨_, h⟩
        obtain ⟨q, hq, _⟩ := h p hp
        simp [entries] at hq
  | kv k v =>
    intro d e2 _ hw2
    cases e2 with
    | none => simp [equalEntries, SameContents, entries]
    | kv k' v' =>
      simp only [equalEntries, andThen_eq_true, SameContents, entries, List.mem_singleton]
      constructor
      · rintro ⟨h1, h2⟩
        constructor
        · rintro p rfl; exact ⟨_, rfl, by simpa using h1, by simpa using h2⟩
        · rintro p rfl; exact ⟨_, rfl, by simpa using h1⟩
      · rintro ⟨h1, _⟩
        obtain ⟨q, rfl, h3, h4⟩ := h1 _ rfl
        exact ⟨by simpa using h3, by simpa using h4⟩
    | hamt h =>
      simp only [equalEntries, SameContents, entries_hamt]
      rw [WF_hamt] at hw2
      obtain ⟨p, hp, q, hq, hpq⟩ := exists_two hw2.2.1 (HWF.pairwise law hw2.2.2)
      constructor
      · intro h; simp at h
      · rintro ⟨_, h⟩
        obtain ⟨p', hp', e1⟩ := h p hp
        obtain ⟨q', hq', e2⟩ := h q hq
        simp only [entries, List.mem_singleton] at hp' hq'
        subst hp' hq'
        have := law.trans _ _ _ (law.symm _ _ e1) e2
        rw [hpq] at this
        cases this
  | hamt f ih =>
    intro d e2 hw1 hw2
    rw [WF_hamt] at hw1
    cases e2 with
    | none =>
      simp only [equalEntries, SameContents, entries_hamt]
      obtain ⟨p, hp⟩ := List.exists_mem_of_length_pos (by omega : 0 < (hentries f).length)
      constructor
      · intro h; simp at h
      · rintro ⟨h, _⟩
        obtain ⟨q, hq, _⟩ := h p hp
        simp [entries] at hq
    | kv k v =>
      simp only [equalEntries, SameContents, entries_hamt]
      obtain ⟨p, hp, q, hq, hpq⟩ := exists_two hw1.2.1 (HWF.pairwise law hw1.2.2)
      constructor
      · intro h; simp at h
      · rintro ⟨h, _⟩
        obtain ⟨p', hp', e1, _⟩ := h p hp
        obtain ⟨q', hq', e2, _⟩ := h q hq
        simp only [entries, List.mem_singleton] at hp' hq'
        subst hp' hq'
        have := law.trans _ _ _ e1 (law.symm _ _ e2)
        rw [hpq] at this
        cases this
    | hamt g =>
      rw [WF_hamt] at hw2
      simp only [equalEntries, foldr_andThen_true, List.mem_finRange, true_implies, entries_hamt]
      constructor
      · intro h
        constructor
        · intro p hp
          obtain ⟨i, hi⟩ := mem_hentries.1 hp
          obtain ⟨q, hq, hr⟩ := ((ih i (g i) (hw1.2.2 i).2 (hw2.2.2 i).2).1 (h i)).1 p hi
          exact ⟨q, mem_hentries.2 ⟨i, hq⟩, hr⟩
        · intro q hq
          obtain ⟨i, hi⟩ := mem_hentries.1 hq
          obtain ⟨p, hp, hr⟩ := ((ih i (g i) (hw1.2.2 i).2 (hw2.2.2 i).2).1 (h i)).2 q hi
          exact ⟨p, mem_hentries.2 ⟨i, hp⟩, hr⟩
      · rintro ⟨h1, h2⟩ i
        rw [ih i (g i) (hw1.2.2 i).2 (hw2.2.2 i).2]
        constructor
        · intro p hp
          obtain ⟨q, hq, hk, hr⟩ := h1 p (mem_hentries.2 ⟨i, hp⟩)
          refine ⟨q, ?_, hk, hr⟩
          have := hw2.2.2.mem_index.1 hq
          rwa [← index_congr law hk, (hw1.2.2 i).1 p hp] at this
        · intro q hq
          obtain ⟨p, hp, hk⟩ := h2 q (mem_hentries.2 ⟨i, hq⟩)
          refine ⟨p, ?_, hk⟩
          have := hw1.2.2.mem_index.1 hp
          rwa [index_congr law hk, (hw2.2.2 i).1 q hq] at this

theorem equalHamts_iff {ctx : Ctx K V} (law : ctx.Lawful) {d : Nat} {f g : Hamt K V}
    (hw1 : HWF ctx d f) (hw2 : HWF ctx d g) :
    equalHamts (fun a b => some (ctx.equalKeys a b)) (fun a b => some (ctx.equalValues a b)) f g = some true ↔
      SameContents ctx (fun a b => ctx.equalValues a b = true) (hentries f) (hentries g) := by
  unfold equalHamts
  simp only [foldr_andThen_true, List.mem_finRange, true_implies]
  constructor
  · intro h
    constructor
    · intro p hp
      obtain ⟨i, hi⟩ := mem_hentries.1 hp
      obtain ⟨q, hq, hr⟩ := ((equalEntries_iff law _ _ (hw1 i).2 (hw2 i).2).1 (h i)).1 p hi
      exact ⟨q, mem_hentries.2 ⟨i, hq⟩, hr⟩
    · intro q hq
      obtain ⟨i, hi⟩ := mem_hentries.1 hq
      obtain ⟨p, hp, hr⟩ := ((equalEntries_iff law _ _ (hw1 i).2 (hw2 i).2).1 (h i)).2 q hi
      exact ⟨p, mem_hentries.2 ⟨i, hp⟩, hr⟩
  · rintro ⟨h1, h2⟩ i
    rw [equalEntries_iff law _ _ (hw1 i).2 (hw2 i).2]
    constructor
    · intro p hp
      obtain ⟨q, hq, hk, hr⟩ := h1 p (mem_hentries.2 ⟨i, hp⟩)
      refine ⟨q, ?_, hk, hr⟩
      have := hw2.mem_index.1 hq
      rwa [← index_congr law hk, (hw1 i).1 p hp] at this
    · intro q hq
      obtain ⟨p, hp, hk⟩ := h2 q (mem_hentries.2 ⟨i, hq⟩)
      refine ⟨p, ?_, hk⟩
      have := hw1.mem_index.1 hp
      rwa [index_congr law hk, (hw2 i).1 q hq] at this

/-- Structural equality visits the pairs in the same order. -/
theorem equalEntries_forall₂ {fk : K → K → Option Bool} {fv : V → V → Option Bool} (e1 : Entry K V) :
    ∀ (e2 : Entry K V), equalEntries fk fv e1 e2 = some true →
      List.Forall₂ (fun p q => fk p.1 q.1 = some true ∧ fv p.2 q.2 = some true) (entries e1) (entries e2) := by
  induction e1 with
  | none =>
    intro e2 h
    cases e2 with
    | none => simp [entries]
    | kv _ _ => simp [equalEntries] at h
    | hamt _ => simp [equalEntries] at h
  | kv k v =>
    intro e2 h
    cases e2 with
    | none => simp [equalEntries] at h
    | kv _ _ =>
      simp only [equalEntries, andThen_eq_true] at h
      simp [entries, h]
    | hamt _ => simp [equalEntries] at h
  | hamt f ih =>
    intro e2 h
    cases e2 with
    | none => simp [equalEntries] at h
    | kv _ _ => simp [equalEntries] at h
    | hamt g =>
      simp only [equalEntries, foldr_andThen_true] at h
      simp only [entries]
      induction List.finRange 32 with
      | nil => simp
      | cons a l ihl =>
        simp only [List.flatMap_cons]
        exact List.rel_append (ih a (g a) (h a (by simp))) ihl

theorem equalHamts_forall₂ {fk : K → K → Option Bool} {fv : V → V → Option Bool} {f g : Hamt K V}
    (h : equalHamts fk fv f g = some true) :
    List.Forall₂ (fun p q => fk p.1 q.1 = some true ∧ fv p.2 q.2 = some true) (hentries f) (hentries g) := by
  have := equalEntries_forall₂ (.hamt f) (.hamt g) (by simpa [equalEntries, equalHamts] using h)
  simpa [entries_hamt] using this

/-! ### Hashes -/

theorem hashEntry_congr {ctx : Ctx K V}
    (hk : ∀ a b, ctx.equalKeys a b = true → ctx.hashKey a = ctx.hashKey b)
    (hv : ∀ a b, ctx.equalValues a b = true → ctx.hashValue a = ctx.hashValue b) (e1 : Entry K V) :
    ∀ (e2 : Entry K V) (x : BitVec 64),
      equalEntries (fun a b => some (ctx.equalKeys a b)) (fun a b => some (ctx.equalValues a b)) e1 e2 =
        some true → hashEntry ctx e1 x = hashEntry ctx e2 x := by
  induction e1 with
  | none =>
    intro e2 x h
    cases e2 with
    | none => rfl
    | kv _ _ => simp [equalEntries] at h
    | hamt _ => simp [equalEntries] at h
  | kv k v =>
    intro e2 x h
    cases e2 with
    | none => simp [equalEntries] at h
    | kv k' v' =>
      simp only [equalEntries, andThen_eq_true, Option.some.injEq] at h
      simp only [hashEntry, hk _ _ h.1, hv _ _ h.2]
    | hamt _ => simp [equalEntries] at h
  | hamt f ih =>
    intro e2 x h
    cases e2 with
    | none => simp [equalEntries] at h
    | kv _ _ => simp [equalEntries] at h
    | hamt g =>
      simp only [equalEntries, foldr_andThen_true] at h
      simp only [hashEntry]
      congr 1
      generalize x = y
      revert h
      induction List.finRange 32 generalizing y with
      | nil => intro _; rfl
      | cons a l ihl =>
        intro h
        simp only [List.foldl_cons]
        rw [ih a (g a) y (h a (by simp))]
        exact ihl _ fun i hi => h i (List.mem_cons_of_mem _ hi)

theorem hashMap_congr {ctx : Ctx K V}
    (hk : ∀ a b, ctx.equalKeys a b = true → ctx.hashKey a = ctx.hashKey b)
    (hv : ∀ a b, ctx.equalValues a b = true → ctx.hashValue a = ctx.hashValue b) {m1 m2 : Map K V}
    (h : equalHamts (fun a b => some (ctx.equalKeys a b)) (fun a b => some (ctx.equalValues a b))
      m1.hamt m2.hamt = some true) (x : BitVec 64) : hashMap ctx x m1 = hashMap ctx x m2 := by
  unfold equalHamts at h
  rw [foldr_andThen_true] at h
  unfold hashMap
  revert h
  induction List.finRange 32 generalizing x with
  | nil => intro _; rfl
  | cons a l ihl =>
    intro h
    simp only [List.foldl_cons]
    rw [hashEntry_congr hk hv _ _ x (h a (by simp))]
    exact ihl _ fun i hi => h i (List.mem_cons_of_mem _ hi)

theorem equalEntries_symm {fk : K → K → Option Bool} {fv : V → V → Option Bool}
    (hk : ∀ a b, fk a b = some true → fk b a = some true) (hv : ∀ a b, fv a b = some true → fv b a = some true)
    (e1 : Entry K V) : ∀ e2, equalEntries fk fv e1 e2 = some true → equalEntries fk fv e2 e1 = some true := by
  induction e1 with
  | none =>
    intro e2 h
    cases e2 with
    | none => exact h
    | kv _ _ => simp [equalEntries] at h
    | hamt _ => simp [equalEntries] at h
  | kv k v =>
    intro e2 h
    cases e2 with
    | none => simp [equalEntries] at h
    | kv k' v' =>
      simp only [equalEntries, andThen_eq_true] at h ⊢
      exact ⟨hk _ _ h.1, hv _ _ h.2⟩
    | hamt _ => simp [equalEntries] at h
  | hamt f ih =>
    intro e2 h
    cases e2 with
    | none => simp [equalEntries] at h
    | kv _ _ => simp [equalEntries] at h
    | hamt g =>
      simp only [equalEntries, foldr_andThen_true] at h ⊢
      exact fun i hi => ih i (g i) (h i hi)

theorem equalEntries_trans {fk : K → K → Option Bool} {fv : V → V → Option Bool}
    (hk : ∀ a b c, fk a b = some true → fk b c = some true → fk a c = some true)
    (hv : ∀ a b c, fv a b = some true → fv b c = some true → fv a c = some true)
    (e1 : Entry K V) : ∀ e2 e3, equalEntries fk fv e1 e2 = some true → equalEntries fk fv e2 e3 = some true →
      equalEntries fk fv e1 e3 = some true := by
  induction e1 with
  | none =>
    intro e2 e3 h h'
    cases e2 with
    | none => exact h'
    | kv _ _ => simp [equalEntries] at h
    | hamt _ => simp [equalEntries] at h
  | kv k v =>
    intro e2 e3 h h'
    cases e2 with
    | none => simp [equalEntries] at h
    | kv k' v' =>
      cases e3 with
      | none => simp [equalEntries] at h'
      | kv _ _ =>
        simp only [equalEntries, andThen_eq_true] at h h' ⊢
        exact ⟨hk _ _ _ h.1 h'.1, hv _ _ _ h.2 h'.2⟩
      | hamt _ => simp [equalEntries] at h'
    | hamt _ => simp [equalEntries] at h
  | hamt f ih =>
    intro e2 e3 h h'
    cases e2 with
    | none => simp [equalEntries] at h
    | kv _ _ => simp [equalEntries] at h
    | hamt g =>
      cases e3 with
      | none => simp [equalEntries] at h'
      | kv _ _ => simp [equalEntries] at h'
      | hamt g' =>
        simp only [equalEntries, foldr_andThen_true] at h h' ⊢
        exact fun i hi => ih i (g i) (g' i) (h i hi) (h' i hi)

theorem equalMaps_iff {ctx : Ctx K V} {x y : Map K V} :
    equalMaps ctx x y = true ↔ x.size = y.size ∧
      equalEntries (fun a b => some (ctx.equalKeys a b)) (fun a b => some (ctx.equalValues a b))
        (.hamt x.hamt) (.hamt y.hamt) = some true := by
  unfold equalMaps
  have e : equalHamts (fun a b => some (ctx.equalKeys a b)) (fun a b => some (ctx.equalValues a b))
      x.hamt y.hamt = equalEntries (fun a b => some (ctx.equalKeys a b))
        (fun a b => some (ctx.equalValues a b)) (.hamt x.hamt) (.hamt y.hamt) := by
    simp [equalEntries, equalHamts]
  rw [e]
  by_cases h : x.size = y.size
  · simp only [h, if_true, true_and]
    cases equalEntries (fun a b => some (ctx.equalKeys a b)) (fun a b => some (ctx.equalValues a b))
      (.hamt x.hamt) (.hamt y.hamt) with
    | none => simp
    | some b => simp
  · simp [h]

/-! ### Merge -/

/-- Set all the pairs of a list, from left to right. -/
def setAll (ctx : Ctx K V) (fuel : Nat) : List (K × V) → Map K V → Option (Map K V)
  | [], m => some m
  | p :: l, m => (setMap ctx fuel m p.1 p.2).bind (setAll ctx fuel l)

theorem setAll_append (ctx : Ctx K V) (fuel : Nat) (l l' : List (K × V)) (m : Map K V) :
    setAll ctx fuel (l ++ l') m = (setAll ctx fuel l m).bind (setAll ctx fuel l') := by
  induction l generalizing m with
  | nil => rfl
  | cons p l ih =>
    simp only [List.cons_append, setAll]
    cases setMap ctx fuel m p.1 p.2 with
    | none => rfl
    | some m' => exact ih m'

theorem foldl_bind_none {α β : Type} (f : α → β → Option β) (l : List α) :
    l.foldl (fun m? i => m?.bind (f i)) (none : Option β) = none := by
  induction l with
  | nil => rfl
  | cons a l ih => simpa using ih

theorem foldl_setAll {ctx : Ctx K V} {fuel : Nat} {h : Hamt K V}
    (hh : ∀ i m, mergeEntry ctx fuel (h i) m = setAll ctx fuel (entries (h i)) m)
    (is : List (Fin 32)) (m : Map K V) :
    is.foldl (fun m? i => m?.bind (fun m => mergeEntry ctx fuel (h i) m)) (some m) =
      setAll ctx fuel (is.flatMap fun i => entries (h i)) m := by
  induction is generalizing m with
  | nil => rfl
  | cons a l ih =>
    simp only [List.foldl_cons, List.flatMap_cons, setAll_append, Option.bind_some, hh]
    cases setAll ctx fuel (entries (h a)) m with
    | none =>
      simp only [Option.bind_none]
      simpa [hh] using foldl_bind_none (fun i m => mergeEntry ctx fuel (h i) m) l
    | some m' => simpa [hh] using ih m'

theorem mergeEntry_eq (ctx : Ctx K V) (fuel : Nat) (e : Entry K V) :
    ∀ m, mergeEntry ctx fuel e m = setAll ctx fuel (entries e) m := by
  induction e with
  | none => intro m; rfl
  | kv k v => intro m; simp [mergeEntry, entries, setAll]
  | hamt h ih =>
    intro m
    simp only [mergeEntry, entries]
    exact foldl_setAll ih _ _

theorem mergeMaps_eq (ctx : Ctx K V) (fuel : Nat) (x y : Map K V) :
    mergeMaps ctx fuel x y = setAll ctx fuel (hentries y.hamt) x := by
  unfold mergeMaps hentries
  exact foldl_setAll (fun i m => mergeEntry_eq ctx fuel (y.hamt i) m) _ _

end Verif.Prelude
