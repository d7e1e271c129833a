import Verif.Runtime.Arc

/-!
# C30, C31, C32: reference-counted blocks
-/
namespace Verif.Runtime.Arc

/-! ### One thread -/

/-- The count encodes the number of handles. -/
structure Seq.Inv (s : Seq) : Prop where
  bound : s.handles ≤ 2 ^ 63 - 1
  live : 0 < s.handles → s.freed = 0 ∧ (s.count = s.handles - 1 ∨ s.count = -s.handles)
  dead : s.handles = 0 → s.freed = 1

theorem Seq.inv_step {s s' : Seq} {o : Op} (hi : s.Inv) (h : s.step o = some s') : s'.Inv := by
  have hb := hi.bound
  cases o with
  | clone =>
    simp only [Seq.step] at h
    split at h
    · rename_i hh
      cases h
      have hl := hi.live hh.1
      refine ⟨by simp only; omega, fun _ => ⟨hl.1, ?_⟩, fun h0 => by simp at h0⟩
      simp only [cloneAction]
      rcases hl.2 with hc | hc
      · have hns : isSynchronized s.count = false := by simp [isSynchronized]; omega
        rw [hns]
        simp only [Bool.not_false, if_true]
        left; omega
      · have hs : isSynchronized s.count = true := by simp [isSynchronized]; omega
        have hst : s.count ≠ staticCount := by simp only [staticCount]; omega
        simp only [hs, Bool.not_true, Bool.false_eq_true, if_false, ne_eq, hst, not_false_eq_true, if_true]
        right; omega
    · cases h
  | drop =>
    simp only [Seq.step] at h
    split at h
    · rename_i hh
      cases h
      have hl := hi.live hh
      rcases hl.2 with hc | hc
      · -- unsynchronized
        have hns : isSynchronized s.count = false := by simp [isSynchronized]; omega
        by_cases h1 : s.handles = 1
        · have hz : s.count = uniqueCount := by simp only [uniqueCount]; omega
          have hns' : isSynchronized uniqueCount = false := by decide
          simp only [dropAction, hz, hns', Bool.false_eq_true, if_false, if_true]
          exact ⟨by simp only; omega, fun h0 => by simp only at h0; omega, fun _ => by simp only [hl.1]⟩
        · have hz : s.count ≠ uniqueCount := by simp only [uniqueCount]; omega
          simp only [dropAction, hns, Bool.false_eq_true, if_false, hz]
          refine ⟨by simp only; omega, fun _ => ⟨hl.1, Or.inl ?_⟩, fun h0 => by simp only at h0; omega⟩
          simp only
          omega
      · have hs : isSynchronized s.count = true := by simp [isSynchronized]; omega
        have hst : s.count ≠ staticCount := by simp only [staticCount]; omega
        by_cases h1 : s.handles = 1
        · have hz : s.count = synchronizedUniqueCount := by simp only [synchronizedUniqueCount]; omega
          have hst' : synchronizedUniqueCount ≠ staticCount := by simp [staticCount, synchronizedUniqueCount]
          have hs' : isSynchronized synchronizedUniqueCount = true := by decide
          simp only [dropAction, hz, hs', if_true, hst', ne_eq, not_false_eq_true, beq_self_eq_true]
          exact ⟨by simp only; omega, fun h0 => by simp only at h0; omega, fun _ => by simp only [hl.1]⟩
        · have hz : (s.count == synchronizedUniqueCount) = false := by
            rw [beq_eq_false_iff_ne]; simp only [synchronizedUniqueCount]; omega
          simp only [dropAction, hs, if_true, hst, ne_eq, not_false_eq_true, hz]
          refine ⟨by simp only; omega, fun _ => ⟨hl.1, Or.inr ?_⟩, fun h0 => by simp only at h0; omega⟩
          simp only
          omega
    · cases h
  | synchronize =>
    simp only [Seq.step] at h
    split at h
    · rename_i hh
      cases h
      have hl := hi.live hh
      refine ⟨by simp only; omega, fun _ => ⟨hl.1, Or.inr ?_⟩, fun h0 => by simp only at h0; omega⟩
      simp only [synchronizeAction, synchronizedUniqueCount]
      rcases hl.2 with hc | hc
      · have hns : isSynchronized s.count = false := by simp [isSynchronized]; omega
        simp only [hns, Bool.not_false, if_true]; omega
      · have hs : isSynchronized s.count = true := by simp [isSynchronized]; omega
        simp only [hs, Bool.not_true, Bool.false_eq_true, if_false]; exact hc
    · cases h

theorem Seq.inv_run {s s' : Seq} {os : List Op} (hi : s.Inv) (h : s.run os = some s') : s'.Inv := by
  induction os generalizing s with
  | nil => simp only [Seq.run, Option.some.injEq] at h; exact h ▸ hi
  | cons o os ih =>
    simp only [Seq.run] at h
    cases hs : s.step o with
    | none => simp [hs] at h
    | some s1 => simp only [hs, Option.bind_some] at h; exact ih (Seq.inv_step hi hs) h

theorem Seq.inv_new : Seq.new.Inv :=
  ⟨by simp [Seq.new], fun _ => ⟨rfl, Or.inl (by simp [Seq.new, uniqueCount])⟩, fun h => by simp [Seq.new] at h⟩

/-- The number of handles is what the operations say: +1 per clone, -1 per drop. -/
theorem Seq.handles_run {s s' : Seq} {os : List Op} (h : s.run os = some s') :
    s'.handles + (os.filter (fun o => o matches .drop)).length =
      s.handles + (os.filter (fun o => o matches .clone)).length := by
  induction os generalizing s with
  | nil => simp only [Seq.run, Option.some.injEq] at h; subst h; simp
  | cons o os ih =>
    simp only [Seq.run] at h
    cases hs : s.step o with
    | none => simp [hs] at h
    | some s1 =>
      simp only [hs, Option.bind_some] at h
      have := ih h
      cases o with
      | clone =>
        simp only [Seq.step] at hs
        split at hs
        · cases hs; simp at this ⊢; omega
        · cases hs
      | drop =>
        simp only [Seq.step] at hs
        split at hs
        · cases hs; simp at this ⊢; omega
        · cases hs
      | synchronize =>
        simp only [Seq.step] at hs
        split at hs
        · cases hs; simp at this ⊢; omega
        · cases hs

/-- **C30**: after any history of clones, drops and synchronizations by the owner of a new block, the block
has been freed exactly once if no handle is left and not at all otherwise; the number of handles is one plus the
clones minus the drops. -/
theorem c30_freed_exactly_once {os : List Op} {s : Seq} (h : Seq.new.run os = some s) :
    (s.freed = if s.handles = 0 then 1 else 0) ∧
      s.handles + (os.filter (fun o => o matches .drop)).length =
        1 + (os.filter (fun o => o matches .clone)).length := by
  have hi := Seq.inv_run Seq.inv_new h
  refine ⟨?_, Seq.handles_run h⟩
  by_cases h0 : s.handles = 0
  · rw [if_pos h0]; exact hi.dead h0
  · rw [if_neg h0]; exact (hi.live (by omega)).1

example : ∃ s, Seq.new.run [.clone, .synchronize, .clone, .drop, .drop, .drop] = some s ∧
    s.handles = 0 ∧ s.freed = 1 := ⟨_, rfl, rfl, rfl⟩

/-- **C32**, one thread: `get_mut` succeeds iff there is exactly one handle. -/
theorem c32_unique_iff {os : List Op} {s : Seq} (h : Seq.new.run os = some s) (hh : 0 < s.handles) :
    isUnique s.count = true ↔ s.handles = 1 := by
  have hi := Seq.inv_run Seq.inv_new h
  have hb := hi.bound
  rcases (hi.live hh).2 with hc | hc
  · have : isSynchronized s.count = false := by simp [isSynchronized]; omega
    simp only [isUnique, this, Bool.false_eq_true, if_false, beq_iff_eq, uniqueCount]
    omega
  · have : isSynchronized s.count = true := by simp [isSynchronized]; omega
    simp only [isUnique, this, if_true, beq_iff_eq, synchronizedUniqueCount]
    omega

example : ∃ s, Seq.new.run [.clone, .synchronize, .drop] = some s ∧ isUnique s.count = true ∧
    ∃ s', Seq.new.run [.clone] = some s' ∧ isUnique s'.count = false := ⟨_, rfl, by decide, _, rfl, by decide⟩

/-- Blocks with the static count are never changed nor freed. -/
theorem c30_static (loaded : Int) (h : loaded = staticCount) :
    cloneAction loaded staticCount = staticCount ∧ dropAction loaded staticCount = (staticCount, false) ∧
      synchronizeAction loaded staticCount = staticCount ∧ isUnique staticCount = false := by
  subst h; decide

/-! ### Many threads -/

variable {T : Type} [DecidableEq T]

/-- The representation invariant of the concurrent machine. -/
structure Conc.Inv (s : Conc T) : Prop where
  bound : Multiset.card s.handles ≤ 2 ^ 63 - 1
  /-- a thread in the middle of an operation owns a handle -/
  busy : ∀ t c, s.pc t = .cloning c ∨ s.pc t = .dropping c ∨ s.pc t = .synchronizing c → t ∈ s.handles
  /-- before synchronization there is only one thread, and it knows the count -/
  unsync : 0 ≤ s.count → 0 < Multiset.card s.handles →
    s.count = Multiset.card s.handles - 1 ∧ (∀ t t', t ∈ s.handles → t' ∈ s.handles → t = t') ∧
      (∀ t c, s.pc t = .cloning c ∨ s.pc t = .dropping c ∨ s.pc t = .synchronizing c → c = s.count)
  /-- after synchronization the loaded counts are those of synchronized blocks that are not static -/
  sync : s.count < 0 → s.count = -Multiset.card s.handles ∧
    (∀ t c, s.pc t = .cloning c ∨ s.pc t = .dropping c ∨ s.pc t = .synchronizing c → c < 0 ∧ c ≠ staticCount)
  /-- somebody frees the block, or has freed it, iff there is no handle left -/
  alive : 0 < Multiset.card s.handles → s.freed = 0 ∧ ∀ t, s.pc t ≠ .freeing
  dead : Multiset.card s.handles = 0 →
    (s.freed = 0 ∧ ∃ t, s.pc t = .freeing ∧ ∀ t', s.pc t' = .freeing → t' = t) ∨
    (s.freed = 1 ∧ ∀ t, s.pc t ≠ .freeing)

theorem setPc_pc (s : Conc T) (t t' : T) (p : Pc) :
    (s.setPc t p).pc t' = if t' = t then p else s.pc t' := by
  simp [Conc.setPc, Function.update_apply]

theorem Conc.inv_new (t : T) : (Conc.new t).Inv where
  bound := by simp [Conc.new]
  busy := by intro t' c h; simp [Conc.new] at h
  unsync := by
    intro _ _
    refine ⟨by simp [Conc.new, uniqueCount], ?_, ?_⟩
    · intro a b ha hb; simp only [Conc.new, Multiset.mem_singleton] at ha hb; rw [ha, hb]
    · intro t' c h; simp [Conc.new] at h
  sync := by intro h; simp [Conc.new, uniqueCount] at h
  alive := by intro _; simp [Conc.new]
  dead := by intro h; simp [Conc.new] at h

theorem card_pos_of_mem {m : Multiset T} {t : T} (h : t ∈ m) : 0 < Multiset.card m :=
  Multiset.card_pos_iff_exists_mem.2 ⟨t, h⟩

/-- Starting an operation preserves the invariant. -/
theorem Conc.inv_start {s : Conc T} (hi : s.Inv) {t : T} (hm : t ∈ s.handles) {p : Pc}
    (hp : p = .cloning s.count ∨ p = .dropping s.count ∨ p = .synchronizing s.count) :
    (s.setPc t p).Inv := by
  have hpos := card_pos_of_mem hm
  have hpf : p ≠ .freeing := by rcases hp with rfl | rfl | rfl <;> simp
  have hload : ∀ c, p = .cloning c ∨ p = .dropping c ∨ p = .synchronizing c → c = s.count := by
    rcases hp with rfl | rfl | rfl <;> intro c h <;> simp at h <;> exact h.symm
  refine ⟨hi.bound, ?_, ?_, ?_, ?_, ?_⟩
  · intro t' c h
    rw [setPc_pc] at h
    by_cases ht : t' = t
    · subst ht; exact hm
    · rw [if_neg ht] at h; exact hi.busy t' c h
  · intro h1 h2
    obtain ⟨a, b, d⟩ := hi.unsync h1 h2
    refine ⟨a, b, ?_⟩
    intro t' c h
    rw [setPc_pc] at h
    by_cases ht : t' = t
    · rw [if_pos ht] at h; exact hload c h
    · rw [if_neg ht] at h; exact d t' c h
  · intro h1
    obtain ⟨a, b⟩ := hi.sync h1
    refine ⟨a, ?_⟩
    intro t' c h
    rw [setPc_pc] at h
    by_cases ht : t' = t
    · rw [if_pos ht] at h
      rw [hload c h]
      refine ⟨h1, ?_⟩
      have := hi.bound
      simp only [staticCount]
      omega
    · rw [if_neg ht] at h; exact b t' c h
  · intro h1
    obtain ⟨a, b⟩ := hi.alive h1
    refine ⟨a, ?_⟩
    intro t'
    rw [setPc_pc]
    by_cases ht : t' = t
    · rw [if_pos ht]; exact hpf
    · rw [if_neg ht]; exact b t'
  · intro h0
    have : Multiset.card s.handles = 0 := h0
    omega

theorem Conc.inv_step {s s' : Conc T} (hi : s.Inv) (h : Step s s') : s'.Inv := by
  have hb := hi.bound
  cases h with
  | startClone t _ hm => exact Conc.inv_start hi hm (Or.inl rfl)
  | startDrop t _ hm => exact Conc.inv_start hi hm (Or.inr (Or.inl rfl))
  | startSynchronize t _ hm => exact Conc.inv_start hi hm (Or.inr (Or.inr rfl))
  | clone t c hpc hlt =>
    have hm := hi.busy t c (Or.inl hpc)
    have hpos := card_pos_of_mem hm
    obtain ⟨hf, hnf⟩ := hi.alive hpos
    have hother : ∀ t' c', (if t' = t then Pc.idle else s.pc t') = .cloning c' ∨
        (if t' = t then Pc.idle else s.pc t') = .dropping c' ∨
        (if t' = t then Pc.idle else s.pc t') = .synchronizing c' →
        t' ≠ t ∧ (s.pc t' = .cloning c' ∨ s.pc t' = .dropping c' ∨ s.pc t' = .synchronizing c') := by
      intro t' c' h
      by_cases ht : t' = t
      · rw [if_pos ht] at h; simp at h
      · rw [if_neg ht] at h; exact ⟨ht, h⟩
    by_cases hs : s.count < 0
    · obtain ⟨hc, hl⟩ := hi.sync hs
      obtain ⟨hc1, hc2⟩ := hl t c (Or.inl hpc)
      have hact : cloneAction c s.count = s.count - 1 := by
        simp [cloneAction, isSynchronized, hc1, hc2]
      refine ⟨?_, ?_, ?_, ?_, ?_, ?_⟩
      · simp only [Multiset.card_cons]; omega
      · intro t' c' h
        simp only [setPc_pc] at h
        exact Multiset.mem_cons_of_mem (hi.busy t' c' (hother t' c' h).2)
      · intro h1; simp only [hact] at h1; omega
      · intro _
        refine ⟨by simp only [hact, Multiset.card_cons]; omega, ?_⟩
        intro t' c' h
        simp only [setPc_pc] at h
        exact hl t' c' (hother t' c' h).2
      · intro _
        refine ⟨hf, ?_⟩
        intro t'
        simp only [setPc_pc]
        by_cases ht : t' = t
        · rw [if_pos ht]; simp
        · rw [if_neg ht]; exact hnf t'
      · intro h0; simp at h0
    · have hs' : 0 ≤ s.count := by omega
      obtain ⟨hc, hone, hl⟩ := hi.unsync hs' hpos
      have hcc := hl t c (Or.inl hpc)
      have hact : cloneAction c s.count = s.count + 1 := by
        subst hcc
        have : ¬ (s.count < 0) := by omega
        simp [cloneAction, isSynchronized, this]
      refine ⟨?_, ?_, ?_, ?_, ?_, ?_⟩
      · simp only [Multiset.card_cons]; omega
      · intro t' c' h
        simp only [setPc_pc] at h
        exact Multiset.mem_cons_of_mem (hi.busy t' c' (hother t' c' h).2)
      · intro _ _
        refine ⟨by simp only [hact, Multiset.card_cons]; omega, ?_, ?_⟩
        · intro a b ha hb'
          rw [Multiset.mem_cons] at ha hb'
          have ha' : a ∈ s.handles := by rcases ha with rfl | ha; exact hm; exact ha
          have hb'' : b ∈ s.handles := by rcases hb' with rfl | hb'; exact hm; exact hb'
          exact hone a b ha' hb''
        · intro t' c' h
          simp only [setPc_pc] at h
          obtain ⟨hne, h⟩ := hother t' c' h
          exact absurd (hone t' t (hi.busy t' c' h) hm) hne
      · intro h1; simp only [hact] at h1; omega
      · intro _
        refine ⟨hf, ?_⟩
        intro t'
        simp only [setPc_pc]
        by_cases ht : t' = t
        · rw [if_pos ht]; simp
        · rw [if_neg ht]; exact hnf t'
      · intro h0; simp at h0
  | drop t c hpc =>
    have hm := hi.busy t c (Or.inr (Or.inl hpc))
    have hpos := card_pos_of_mem hm
    obtain ⟨hf, hnf⟩ := hi.alive hpos
    have hcard := Multiset.card_erase_of_mem hm
    have hother : ∀ (p : Pc), (p = .idle ∨ p = .freeing) → ∀ t' c', (if t' = t then p else s.pc t') = .cloning c' ∨
        (if t' = t then p else s.pc t') = .dropping c' ∨
        (if t' = t then p else s.pc t') = .synchronizing c' →
        t' ≠ t ∧ (s.pc t' = .cloning c' ∨ s.pc t' = .dropping c' ∨ s.pc t' = .synchronizing c') := by
      intro p hp t' c' h
      by_cases ht : t' = t
      · rw [if_pos ht] at h; rcases hp with rfl | rfl <;> simp at h
      · rw [if_neg ht] at h; exact ⟨ht, h⟩
    have hkeep : ∀ t' c', t' ≠ t → (s.pc t' = .cloning c' ∨ s.pc t' = .dropping c' ∨ s.pc t' = .synchronizing c') →
        t' ∈ s.handles.erase t := by
      intro t' c' hne h
      exact (Multiset.mem_erase_of_ne hne).2 (hi.busy t' c' h)
    have hp2 : ∀ b : Bool, (if b then Pc.freeing else Pc.idle) = .idle ∨ (if b then Pc.freeing else Pc.idle) = .freeing := by
      intro b; cases b <;> simp
    by_cases hs : s.count < 0
    · obtain ⟨hc, hl⟩ := hi.sync hs
      obtain ⟨hc1, hc2⟩ := hl t c (Or.inr (Or.inl hpc))
      have hact : dropAction c s.count = (s.count + 1, s.count == synchronizedUniqueCount) := by
        simp [dropAction, isSynchronized, hc1, hc2]
      rw [hact]
      by_cases h1 : Multiset.card s.handles = 1
      · have hu : (s.count == synchronizedUniqueCount) = true := by
          rw [beq_iff_eq]; simp only [synchronizedUniqueCount]; omega
        simp only [hu, if_true]
        have hz : Multiset.card (s.handles.erase t) = 0 := by rw [hcard, h1]; rfl
        refine ⟨by simp only; omega, ?_, ?_, ?_, ?_, ?_⟩
        · intro t' c' h
          simp only [setPc_pc] at h
          obtain ⟨hne, h⟩ := hother _ (Or.inr rfl) t' c' h
          exact hkeep t' c' hne h
        · intro _ h; simp only at h; omega
        · intro h; simp only at h; omega
        · intro h; simp only at h; omega
        · intro _
          left
          refine ⟨hf, t, by simp [setPc_pc], ?_⟩
          intro t' h
          simp only [setPc_pc] at h
          by_contra ht
          rw [if_neg ht] at h
          exact hnf t' h
      · have hu : (s.count == synchronizedUniqueCount) = false := by
          rw [beq_eq_false_iff_ne]; simp only [synchronizedUniqueCount]; omega
        simp only [hu, Bool.false_eq_true, if_false]
        have hpred : (Multiset.card s.handles).pred = Multiset.card s.handles - 1 := rfl
        refine ⟨by simp only [hcard, hpred]; omega, ?_, ?_, ?_, ?_, ?_⟩
        · intro t' c' h
          simp only [setPc_pc] at h
          obtain ⟨hne, h⟩ := hother _ (Or.inl rfl) t' c' h
          exact hkeep t' c' hne h
        · intro h; simp only at h; omega
        · intro _
          refine ⟨?_, ?_⟩
          · simp only [hcard]
            have : (Multiset.card s.handles).pred = Multiset.card s.handles - 1 := rfl
            omega
          · intro t' c' h
            simp only [setPc_pc] at h
            exact hl t' c' (hother _ (Or.inl rfl) t' c' h).2
        · intro _
          refine ⟨hf, ?_⟩
          intro t'
          simp only [setPc_pc]
          by_cases ht : t' = t
          · rw [if_pos ht]; simp
          · rw [if_neg ht]; exact hnf t'
        · intro h
          simp only [hcard] at h
          have : (Multiset.card s.handles).pred = Multiset.card s.handles - 1 := rfl
          omega
    · have hs' : 0 ≤ s.count := by omega
      obtain ⟨hc, hone, hl⟩ := hi.unsync hs' hpos
      have hcc := hl t c (Or.inr (Or.inl hpc))
      have hnos : isSynchronized c = false := by rw [hcc]; simp [isSynchronized]; omega
      have honly : ∀ t' c', t' ≠ t → ¬ (s.pc t' = .cloning c' ∨ s.pc t' = .dropping c' ∨ s.pc t' = .synchronizing c') := by
        intro t' c' hne h
        exact hne (hone t' t (hi.busy t' c' h) hm)
      by_cases h1 : Multiset.card s.handles = 1
      · have hz : Multiset.card (s.handles.erase t) = 0 := by rw [hcard, h1]; rfl
        have hact : dropAction c s.count = (s.count, true) := by
          have : c = uniqueCount := by simp only [uniqueCount]; omega
          unfold dropAction
          rw [hnos, if_neg (by simp), if_pos this]
        rw [hact]
        simp only [if_true]
        refine ⟨by simp only; omega, ?_, ?_, ?_, ?_, ?_⟩
        · intro t' c' h
          simp only [setPc_pc] at h
          obtain ⟨hne, h⟩ := hother _ (Or.inr rfl) t' c' h
          exact absurd h (honly t' c' hne)
        · intro _ h; simp only at h; omega
        · intro h; simp only at h; omega
        · intro h; simp only at h; omega
        · intro _
          left
          refine ⟨hf, t, by simp [setPc_pc], ?_⟩
          intro t' h
          simp only [setPc_pc] at h
          by_contra ht
          rw [if_neg ht] at h
          exact hnf t' h
      · have hact : dropAction c s.count = (s.count - 1, false) := by
          have : c ≠ uniqueCount := by simp only [uniqueCount]; omega
          simp only [dropAction, hnos, Bool.false_eq_true, if_false, this]
          rw [hcc]
        have hcard' : Multiset.card (s.handles.erase t) = Multiset.card s.handles - 1 := hcard
        rw [hact]
        simp only [Bool.false_eq_true, if_false]
        refine ⟨by simp only [hcard']; omega, ?_, ?_, ?_, ?_, ?_⟩
        · intro t' c' h
          simp only [setPc_pc] at h
          obtain ⟨hne, h⟩ := hother _ (Or.inl rfl) t' c' h
          exact absurd h (honly t' c' hne)
        · intro _ _
          refine ⟨by simp only [hcard']; omega, ?_, ?_⟩
          · intro a b ha hb'
            exact hone a b (Multiset.mem_of_mem_erase ha) (Multiset.mem_of_mem_erase hb')
          · intro t' c' h
            simp only [setPc_pc] at h
            obtain ⟨hne, h⟩ := hother _ (Or.inl rfl) t' c' h
            exact absurd h (honly t' c' hne)
        · intro h; simp only at h; omega
        · intro _
          refine ⟨hf, ?_⟩
          intro t'
          simp only [setPc_pc]
          by_cases ht : t' = t
          · rw [if_pos ht]; simp
          · rw [if_neg ht]; exact hnf t'
        · intro h; simp only [hcard'] at h; omega
  | free t hpc =>
    have hz : Multiset.card s.handles = 0 := by
      by_contra h
      exact (hi.alive (by omega)).2 t hpc
    have hno : ∀ t', t' ∉ s.handles := by
      intro t' hm
      have := card_pos_of_mem hm
      omega
    rcases hi.dead hz with ⟨hf, t0, ht0, huniq⟩ | ⟨_, hnone⟩
    · refine ⟨by simp only [Conc.setPc]; omega, ?_, ?_, ?_, ?_, ?_⟩
      · intro t' c' h
        simp only [setPc_pc] at h
        by_cases ht : t' = t
        · rw [if_pos ht] at h; simp at h
        · rw [if_neg ht] at h; exact hi.busy t' c' h
      · intro _ h; simp only [Conc.setPc] at h; omega
      · intro h
        have h' : s.count < 0 := h
        obtain ⟨a, b⟩ := hi.sync h'
        omega
      · intro h; simp only [Conc.setPc] at h; omega
      · intro _
        right
        refine ⟨by simp [hf], ?_⟩
        intro t'
        simp only [setPc_pc]
        by_cases ht : t' = t
        · rw [if_pos ht]; simp
        · rw [if_neg ht]
          intro hfr
          exact ht ((huniq t' hfr).trans (huniq t hpc).symm)
    · exact absurd hpc (hnone t)
  | synchronize t c hpc =>
    have hm := hi.busy t c (Or.inr (Or.inr hpc))
    have hpos := card_pos_of_mem hm
    obtain ⟨hf, hnf⟩ := hi.alive hpos
    have hother : ∀ t' c', (if t' = t then Pc.idle else s.pc t') = .cloning c' ∨
        (if t' = t then Pc.idle else s.pc t') = .dropping c' ∨
        (if t' = t then Pc.idle else s.pc t') = .synchronizing c' →
        t' ≠ t ∧ (s.pc t' = .cloning c' ∨ s.pc t' = .dropping c' ∨ s.pc t' = .synchronizing c') := by
      intro t' c' h
      by_cases ht : t' = t
      · rw [if_pos ht] at h; simp at h
      · rw [if_neg ht] at h; exact ⟨ht, h⟩
    have hnf' : ∀ t', (if t' = t then Pc.idle else s.pc t') ≠ .freeing := by
      intro t'
      by_cases ht : t' = t
      · rw [if_pos ht]; simp
      · rw [if_neg ht]; exact hnf t'
    by_cases hs : s.count < 0
    · obtain ⟨hc, hl⟩ := hi.sync hs
      obtain ⟨hc1, hc2⟩ := hl t c (Or.inr (Or.inr hpc))
      have hact : synchronizeAction c s.count = s.count := by
        simp [synchronizeAction, isSynchronized, hc1]
      refine ⟨hi.bound, ?_, ?_, ?_, ?_, ?_⟩
      · intro t' c' h
        simp only [setPc_pc] at h
        exact hi.busy t' c' (hother t' c' h).2
      · intro h1; simp only [hact] at h1; omega
      · intro _
        refine ⟨by simp only [hact]; exact hc, ?_⟩
        intro t' c' h
        simp only [setPc_pc] at h
        exact hl t' c' (hother t' c' h).2
      · intro _
        refine ⟨hf, ?_⟩
        intro t'
        simp only [setPc_pc]
        exact hnf' t'
      · intro h0
        have : Multiset.card s.handles = 0 := h0
        omega
    · have hs' : 0 ≤ s.count := by omega
      obtain ⟨hc, hone, hl⟩ := hi.unsync hs' hpos
      have hcc := hl t c (Or.inr (Or.inr hpc))
      have hnos : isSynchronized c = false := by rw [hcc]; simp [isSynchronized]; omega
      have hact : synchronizeAction c s.count = -1 - s.count := by
        simp only [synchronizeAction, hnos, Bool.not_false, if_true, synchronizedUniqueCount]
        rw [hcc]
      refine ⟨hi.bound, ?_, ?_, ?_, ?_, ?_⟩
      · intro t' c' h
        simp only [setPc_pc] at h
        exact hi.busy t' c' (hother t' c' h).2
      · intro h1; simp only [hact] at h1; omega
      · intro _
        refine ⟨by simp only [hact, Conc.setPc]; omega, ?_⟩
        intro t' c' h
        simp only [setPc_pc] at h
        obtain ⟨hne, h⟩ := hother t' c' h
        exact absurd (hone t' t (hi.busy t' c' h) hm) hne
      · intro _
        refine ⟨hf, ?_⟩
        intro t'
        simp only [setPc_pc]
        exact hnf' t'
      · intro h0
        have : Multiset.card s.handles = 0 := h0
        omega
  | send t t' hpc hm hsync =>
    have hpos := card_pos_of_mem hm
    have hs : s.count < 0 := by simpa [isSynchronized] using hsync
    obtain ⟨hf, hnf⟩ := hi.alive hpos
    obtain ⟨hc, hl⟩ := hi.sync hs
    have hcard : Multiset.card (t' ::ₘ s.handles.erase t) = Multiset.card s.handles := by
      rw [Multiset.card_cons, Multiset.card_erase_of_mem hm]
      exact Nat.succ_pred_eq_of_pos hpos
    refine ⟨by simp only [hcard]; exact hb, ?_, ?_, ?_, ?_, ?_⟩
    · intro t1 c h
      have hne : t1 ≠ t := by
        rintro rfl
        have h' : s.pc t1 = .cloning c ∨ s.pc t1 = .dropping c ∨ s.pc t1 = .synchronizing c := h
        rw [hpc] at h'
        simp at h'
      exact Multiset.mem_cons_of_mem ((Multiset.mem_erase_of_ne hne).2 (hi.busy t1 c h))
    · intro h1
      have : 0 ≤ s.count := h1
      omega
    · intro _
      exact ⟨by simp only [hcard]; exact hc, hl⟩
    · intro _; exact ⟨hf, hnf⟩
    · intro h0
      simp only [hcard] at h0
      omega

theorem Reachable.inv {s : Conc T} (h : Reachable s) : s.Inv := by
  induction h with
  | new t => exact Conc.inv_new t
  | step _ hs ih => exact Conc.inv_step ih hs

/-- **C31**: under every schedule, a block is never freed while a handle to it exists or while any thread is in the
middle of an operation on it, and it is never freed twice. -/
theorem c31_no_early_or_double_free {s : Conc T} (h : Reachable s) :
    s.freed ≤ 1 ∧ (0 < s.freed → s.handles = 0 ∧ ∀ t, s.pc t = .idle) := by
  have hi := h.inv
  constructor
  · by_cases h0 : Multiset.card s.handles = 0
    · rcases hi.dead h0 with ⟨hf, _⟩ | ⟨hf, _⟩ <;> omega
    · have := (hi.alive (by omega)).1; omega
  · intro hfr
    have h0 : Multiset.card s.handles = 0 := by
      by_contra h0
      have := (hi.alive (by omega)).1
      omega
    have hz : s.handles = 0 := Multiset.card_eq_zero.1 h0
    refine ⟨hz, ?_⟩
    intro t
    have hb := hi.busy t
    rw [hz] at hb
    rcases hi.dead h0 with ⟨hf, _⟩ | ⟨_, hn⟩
    · omega
    · cases hp : s.pc t with
      | idle => rfl
      | cloning c => exact absurd (hb c (Or.inl hp)) (Multiset.notMem_zero t)
      | dropping c => exact absurd (hb c (Or.inr (Or.inl hp))) (Multiset.notMem_zero t)
      | synchronizing c => exact absurd (hb c (Or.inr (Or.inr hp))) (Multiset.notMem_zero t)
      | freeing => exact absurd hp (hn t)

/-- **C31**, no leak: once all handles are dropped and all threads are done, the block has been freed. -/
theorem c31_no_leak {s : Conc T} (h : Reachable s) (h0 : s.handles = 0) (hidle : ∀ t, s.pc t = .idle) :
    s.freed = 1 := by
  have hi := h.inv
  rcases hi.dead (by rw [h0]; rfl) with ⟨_, t, ht, _⟩ | ⟨hf, _⟩
  · rw [hidle t] at ht; cases ht
  · exact hf

/-- **C31**, progress: when the last handle is gone and the block is not yet freed, some thread is about to free
it. -/
theorem c31_last_drop_frees {s : Conc T} (h : Reachable s) (h0 : s.handles = 0) (hf : s.freed = 0) :
    ∃ t, s.pc t = .freeing := by
  rcases h.inv.dead (by rw [h0]; rfl) with ⟨_, t, ht, _⟩ | ⟨hf', _⟩
  · exact ⟨t, ht⟩
  · omega

/-- **C32**, many threads: if a thread that owns a handle sees the block as unique, that handle is the only one; no
other thread is in the middle of an operation and none can take a step that touches the block. -/
theorem c32_unique_exclusive {s : Conc T} (h : Reachable s) {t : T} (hm : t ∈ s.handles)
    (hu : isUnique s.count = true) :
    s.handles = {t} ∧ (∀ t', t' ≠ t → s.pc t' = .idle) ∧
      (s.pc t = .idle → ∀ s', Step s s' → ∀ t', t' ≠ t → s'.pc t' = .idle ∧ s'.count = s.count ∧ s'.freed = 0) := by
  have hi := h.inv
  have hpos := card_pos_of_mem hm
  have hcard : Multiset.card s.handles = 1 := by
    by_cases hs : s.count < 0
    · have hss : isSynchronized s.count = true := by simp [isSynchronized, hs]
      simp only [isUnique, hss, if_true, beq_iff_eq, synchronizedUniqueCount] at hu
      have := (hi.sync hs).1
      omega
    · have hss : isSynchronized s.count = false := by simp [isSynchronized]; omega
      simp only [isUnique, hss, Bool.false_eq_true, if_false, beq_iff_eq, uniqueCount] at hu
      have := (hi.unsync (by omega) hpos).1
      omega
  have heq : s.handles = {t} := by
    obtain ⟨a, ha⟩ := Multiset.card_eq_one.1 hcard
    rw [ha, Multiset.mem_singleton] at hm
    rw [ha, hm]
  have hidle : ∀ t', t' ≠ t → s.pc t' = .idle := by
    intro t' hne
    have hb := hi.busy t'
    have hnm : t' ∉ s.handles := by rw [heq, Multiset.mem_singleton]; exact hne
    cases hp : s.pc t' with
    | idle => rfl
    | cloning c => exact absurd (hb c (Or.inl hp)) hnm
    | dropping c => exact absurd (hb c (Or.inr (Or.inl hp))) hnm
    | synchronizing c => exact absurd (hb c (Or.inr (Or.inr hp))) hnm
    | freeing => exact absurd hp ((hi.alive hpos).2 t')
  refine ⟨heq, hidle, ?_⟩
  intro hpt s' hstep t' hne
  have hself : ∀ t1, t1 ∈ s.handles → t1 = t := by
    intro t1 h1; rw [heq, Multiset.mem_singleton] at h1; exact h1
  cases hstep with
  | startClone t1 _ h1 =>
    rw [setPc_pc, hself t1 h1, if_neg hne]; exact ⟨hidle t' hne, rfl, (hi.alive hpos).1⟩
  | startDrop t1 _ h1 => rw [setPc_pc, hself t1 h1, if_neg hne]; exact ⟨hidle t' hne, rfl, (hi.alive hpos).1⟩
  | startSynchronize t1 _ h1 => rw [setPc_pc, hself t1 h1, if_neg hne]; exact ⟨hidle t' hne, rfl, (hi.alive hpos).1⟩
  | clone t1 c h1 =>
    have := hself t1 (hi.busy t1 c (Or.inl h1))
    subst this; rw [hpt] at h1; cases h1
  | drop t1 c h1 =>
    have := hself t1 (hi.busy t1 c (Or.inr (Or.inl h1)))
    subst this; rw [hpt] at h1; cases h1
  | synchronize t1 c h1 =>
    have := hself t1 (hi.busy t1 c (Or.inr (Or.inr h1)))
    subst this; rw [hpt] at h1; cases h1
  | free t1 h1 => exact absurd h1 ((hi.alive hpos).2 t1)
  | send => exact ⟨hidle t' hne, rfl, (hi.alive hpos).1⟩

/-- A schedule in which two threads drop at the same time, both having loaded the count -2. -/
example : ∃ s : Conc Bool, Reachable s ∧ s.handles = 0 ∧ s.freed = 1 ∧ ∀ t, s.pc t = .idle := by
  have r0 := Reachable.new (T := Bool) true
  have r1 := r0.step (.startSynchronize _ true rfl (by decide))
  have r2 := r1.step (.synchronize _ true 0 rfl)
  have r3 := r2.step (.startClone _ true (by decide) (by decide))
  have r4 := r3.step (.clone _ true (-1) rfl (by decide))
  have r5 := r4.step (.send _ true false (by decide) (by decide) (by decide))
  have r6 := r5.step (.startDrop _ true (by decide) (by decide))
  have r7 := r6.step (.startDrop _ false (by decide) (by decide))
  have r8 := r7.step (.drop _ true (-2) (by decide))
  have r9 := r8.step (.drop _ false (-2) (by decide))
  have r10 := r9.step (.free _ false (by decide))
  exact ⟨_, r10, by decide, by decide, by decide⟩

end Verif.Runtime.Arc
