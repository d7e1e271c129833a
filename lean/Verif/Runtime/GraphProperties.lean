import Verif.Runtime.GraphWhole

/-
C60: values shared by threads. Theorems are about every number of threads, every program and every schedule. They are partial:
they are about executions in which whatever is stored into a synchronized record by an update in place is synchronized
(`careful`), and in which no thunks are evaluated. Without these restrictions the property is false; see
`c60_update_race` and `GraphThunk`.
-/
namespace Verif.Runtime.Graph

open Verif.Runtime.Arc (isSynchronized staticCount uniqueCount cloneAction dropAction synchronizeAction isUnique)

variable {T : Type} [DecidableEq T]

/-! ### Specification -/

/-- The number of references to a block: those of variables and of operations that threads have begun, and those in
fields of blocks. -/
def State.references (s : State T) (b : Addr) : Nat :=
  s.held.countP (fun p => p.2 = b) + (s.heap.map fun B => B.fields.count (some b)).sum

/-- Blocks that a thread can get at. -/
inductive State.Reaches (s : State T) (t : T) : Addr → Prop
  | held {b : Addr} : (t, b) ∈ s.held → Reaches s t b
  | field {a b : Addr} {A : Block} : Reaches s t a → s.heap[a]? = some A → some b ∈ A.fields → Reaches s t b

theorem reaches_iff {s : State T} {t : T} {b : Addr} : s.Reaches t b ↔ s.core.Reach t b := by
  constructor
  · intro h
    induction h with
    | held h => exact .held h
    | field _ ha hb ih => exact .field ih ha hb
  · intro h
    induction h with
    | held h => exact .held h
    | field _ ha hb ih => exact .field ih ha hb

theorem references_eq (s : State T) (b : Addr) : s.references b = s.core.refs b := rfl

/-! ### Theorems -/

/-- No memory is used after it is freed, and no block is freed twice. -/
theorem c60_no_use_after_free_partial {s : State T} (h : Reachable true s) : ¬ s.broken := by
  obtain ⟨_, h⟩ := h.ok; exact h.broken

/-- There are no data races. -/
theorem c60_no_data_race_partial {s : State T} (h : Reachable true s) : ¬ s.race := by
  obtain ⟨_, h⟩ := h.ok; exact h.race

/-- What a thread can get at is not freed. -/
theorem c60_reachable_live_partial {s : State T} (h : Reachable true s) {t : T} {b : Addr} (hr : s.Reaches t b) :
    ∃ B, s.heap[b]? = some B ∧ B.status = .live := by
  obtain ⟨_, h⟩ := h.ok; exact h.inv.reach_live (reaches_iff.1 hr)

/-- Counts of blocks are right at all times. -/
theorem c60_counts_partial {s : State T} (h : Reachable true s) {b : Addr} {B : Block} (hB : s.heap[b]? = some B)
    (hl : B.status = .live) (hc : B.count ≠ staticCount) :
    0 < s.references b ∧ B.count = if isSynchronized B.count then -(s.references b : Int) else s.references b - 1 := by
  obtain ⟨_, h⟩ := h.ok
  obtain ⟨hp, hc, _⟩ := h.inv.counted b B ⟨hB, hl⟩ hc
  rw [references_eq]
  refine ⟨hp, ?_⟩
  split
  · rename_i h; rw [isSynchronized_iff] at h; omega
  · rename_i h; rw [isSynchronized_iff] at h; omega

/-- A block without references is freed, or some thread is about to free it. -/
theorem c60_collected_partial {s : State T} (h : Reachable true s) {b : Addr} {B : Block} (hB : s.heap[b]? = some B)
    (hs : B.count ≠ staticCount) (hr : s.references b = 0) :
    B.status = .freed ∨ ∃ t, Task.free b ∈ s.tasks t := by
  obtain ⟨_, h⟩ := h.ok
  cases hst : B.status with
  | live => have := (h.inv.counted b B ⟨hB, hst⟩ hs).1; rw [← references_eq] at this; omega
  | dying => exact Or.inr (h.inv.dying b B hB hst)
  | freed => exact Or.inl rfl

/-- Nothing leaks: when all threads have dropped all their references, all memory is freed. -/
theorem c60_no_leak_partial {s : State T} (h : Reachable true s) (ht : ∀ t, s.tasks t = []) (hh : s.held = 0) {b : Addr}
    {B : Block} (hB : s.heap[b]? = some B) (hs : B.count ≠ staticCount) : B.status = .freed := by
  obtain ⟨_, h⟩ := h.ok
  have key : ∀ b : Addr, ∀ B : Block, s.heap[b]? = some B → B.status = .live → B.count = staticCount := by
    refine h.acyclic.induction fun b ih B hB hl => ?_
    by_contra hc
    have hp := (h.inv.counted b B ⟨hB, hl⟩ hc).1
    unfold Core.refs at hp
    have e : heldRefs s.core.held b = 0 := by
      show heldRefs s.held b = 0
      rw [hh]; rfl
    obtain ⟨a, A, ha, hm⟩ := fieldRefs_pos (by omega : 0 < fieldRefs s.core.heap b)
    have hp := parent_live h.inv ha hm
    exact hp.2 (ih a A ha hm A ha hp.1.2)
  cases hst : B.status with
  | live => exact absurd (key b B hB hst) hs
  | dying =>
    obtain ⟨t, hf⟩ := h.inv.dying b B hB hst
    have hf : Task.free b ∈ s.tasks t := hf
    rw [ht t] at hf; cases hf
  | freed => rfl

/-- Blocks that two threads can get at are synchronized. -/
theorem c60_shared_synchronized_partial {s : State T} (h : Reachable true s) {t t' : T} {b : Addr} (hr : s.Reaches t b)
    (hr' : s.Reaches t' b) (hn : t ≠ t') : ∃ B, s.heap[b]? = some B ∧ isSynchronized B.count = true := by
  obtain ⟨_, h⟩ := h.ok
  obtain ⟨B, hB⟩ := h.inv.reach_live (reaches_iff.1 hr)
  refine ⟨B, hB.1, isSynchronized_iff.2 ?_⟩
  by_contra hc
  obtain ⟨o, ho⟩ := h.inv.owned b B hB (by omega)
  exact hn ((h.inv.owner_reach (reaches_iff.1 hr) ho).trans (h.inv.owner_reach (reaches_iff.1 hr') ho).symm)

/-- Synchronization is deep: when a thread has synchronized a value, all that can be reached from it is synchronized. -/
theorem c60_deep_partial {s : State T} (h : Reachable true s) {t : T} (ht : s.tasks t = []) {a f : Addr} {A : Block}
    (hr : s.Reaches t a) (hA : s.heap[a]? = some A) (hc : isSynchronized A.count = true) (hf : some f ∈ A.fields) :
    ∃ F, s.heap[f]? = some F ∧ isSynchronized F.count = true := by
  obtain ⟨_, h⟩ := h.ok
  obtain ⟨owner, h, hset⟩ := h.settle ht
  have hr := reaches_iff.1 hr
  obtain ⟨A', hA'⟩ := h.inv.reach_live hr
  have : A' = A := Option.some.inj (hA'.1.symm.trans hA)
  subst this
  have hrf : s.core.Reach t f := .field hr hA hf
  obtain ⟨F, hF⟩ := h.inv.reach_live hrf
  refine ⟨F, hF.1, isSynchronized_iff.2 ?_⟩
  by_contra hn
  obtain ⟨o, ho⟩ := h.inv.owned f F hF (by omega)
  have ho' := h.inv.ownerField _ _ _ _ ho hA hf
  have e := h.inv.owner_reach hr ho'
  subst e
  have := hset a A' hA' ho'
  have := isSynchronized_iff.1 hc
  omega

/-- While a record is updated in place, its only reference is the one of the thread that updates it. -/
theorem c60_update_exclusive_partial {s : State T} (h : Reachable true s) {t : T} {b g : Addr} {i : Nat}
    (ht : Task.store b i g ∈ s.tasks t) :
    (t, b) ∈ s.held ∧ s.references b = 1 ∧ ∀ t', s.Reaches t' b → t' = t := by
  obtain ⟨_, h⟩ := h.ok
  have hh : (t, b) ∈ s.core.held := mem_of_needs h.inv ht (by simp [Task.needs])
  have h1 := (h.inv.taskOk t _ ht).1
  exact ⟨hh, h1, fun t' hr => Core.unique_reach h1 hh (reaches_iff.1 hr)⟩

/-- Threads never wait: a thread in a clone, a drop, a synchronization or an update can take its next step whatever the
other threads do. (Of an update, the index of the field has to be right, and it has to be careful.) -/
theorem c60_progress_partial {s : State T} (h : Reachable true s) {t : T} {k : Task} {ks : List Task} (ht : s.tasks t = k :: ks)
    (hfit : ∀ b c B, k = .cloneLoaded b c → s.heap[b]? = some B → Fits B (cloneAction c B.count))
    (hupdate : ∀ b i g, k = .update b i g → ∃ B, s.heap[b]? = some B ∧ i < B.fields.length ∧
      (isSynchronized B.count = true → ∃ G, s.heap[g]? = some G ∧ isSynchronized G.count = true)) :
    ∃ s', Step true t s s' := by
  obtain ⟨_, h⟩ := h.ok
  have hk : k ∈ s.core.tasks t := by
    show k ∈ s.tasks t
    rw [ht]; exact List.mem_cons_self
  have ok := h.inv.taskOk t k hk
  have hneed : ∀ b, b ∈ k.needs → ∃ B : Block, s.heap[b]? = some B := fun b hb => by
    obtain ⟨B, hB⟩ := h.inv.reach_live (.held (mem_of_needs h.inv hk hb))
    exact ⟨B, hB.1⟩
  cases k with
  | clone b =>
    obtain ⟨B, hB⟩ := h.inv.reach_live ok
    exact ⟨_, .loadClone s t b B.count ks B ht hB.1 (Or.inl rfl)⟩
  | cloneLoaded b c =>
    obtain ⟨B, hB⟩ := h.inv.reach_live ok.1
    exact ⟨_, .finishClone s t b c ks B ht hB.1 (hfit b c B rfl hB.1)⟩
  | drop b =>
    obtain ⟨B, hB⟩ := hneed b (by simp [Task.needs])
    exact ⟨_, .loadDrop s t b B.count ks B ht hB (Or.inl rfl)⟩
  | dropLoaded b c =>
    obtain ⟨B, hB⟩ := hneed b (by simp [Task.needs])
    cases hd : (dropAction c B.count).2 with
    | false => exact ⟨_, .finishDrop s t b c ks B ht hB hd⟩
    | true => exact ⟨_, .finishLastDrop s t b c ks B ht hB hd⟩
  | free b =>
    obtain ⟨B, hB, _⟩ := ok
    exact ⟨_, .free s t b ks B ht hB⟩
  | sync b =>
    obtain ⟨B, hB⟩ := h.inv.reach_live ok
    exact ⟨_, .loadSync s t b B.count ks B ht hB.1 (Or.inl rfl)⟩
  | syncLoaded b c =>
    obtain ⟨B, hB⟩ := h.inv.reach_live ok.1
    cases hc : isSynchronized c with
    | true => exact ⟨_, .synchronized s t b c ks ht hc⟩
    | false => exact ⟨_, .finishSync s t b c ks B ht hB.1 hc⟩
  | update b i g =>
    obtain ⟨B, hB, hi, hg⟩ := hupdate b i g rfl
    cases hu : isUnique B.count with
    | true =>
      exact ⟨_, .startUpdate s t b i g B.count ks B _ ht hB ⟨Or.inl rfl, fun e => e⟩ hu (List.getElem?_eq_getElem hi)
        fun _ => hg⟩
    | false => exact ⟨_, .shared s t b i g B.count ks B ht hB ⟨Or.inl rfl, fun e => e⟩ hu⟩
  | store b i g =>
    obtain ⟨B, hB⟩ := hneed b (by simp [Task.needs])
    exact ⟨_, .finishUpdate s t b i g ks B ht hB⟩

/-! ### Executions -/

/-- Executions, as lists of threads that take steps. -/
inductive Steps (careful : Bool) : State T → State T → Prop
  | refl (s : State T) : Steps careful s s
  | step {s s' s'' : State T} {t : T} : Step careful t s s' → Steps careful s' s'' → Steps careful s s''

theorem Steps.reachable {careful : Bool} {s s' : State T} (h : Steps careful s s') (hr : Reachable careful s) :
    Reachable careful s' := by
  induction h with
  | refl => exact hr
  | step h _ ih => exact ih (.step hr h)

/-- An execution that meets the hypotheses: thread `false` makes a record of a record, synchronizes it and sends it to thread
`true`, which reads the inner one, and drops both; all is freed. -/
example : ∃ s : State Bool, Reachable true s ∧ (∀ t, s.tasks t = []) ∧ s.held = 0 ∧ s.heap.map (·.status) = [.freed, .freed] := by
  refine ⟨_, Steps.reachable (s := State.initial 0)
    (.step (.allocate _ false [none] rfl (by decide))
    (.step (.allocate _ false [some 0, none] rfl (by decide))
    (.step (.sync _ false 1 rfl (by decide))
    (.step (.loadSync _ false 1 0 _ _ rfl rfl (Or.inl rfl))
    (.step (.finishSync _ false 1 0 _ _ rfl rfl rfl)
    (.step (.loadSync _ false 0 0 _ _ rfl rfl (Or.inl rfl))
    (.step (.finishSync _ false 0 0 _ _ rfl rfl rfl)
    (.step (.send _ false true 1 _ rfl rfl (by decide) rfl rfl)
    (.step (.field _ true 1 _ 0 rfl (by decide) rfl (by decide))
    (.step (.loadClone _ true 0 (-1) _ _ rfl rfl (Or.inl rfl))
    (.step (.finishClone _ true 0 (-1) _ _ rfl rfl (Or.inr (by decide)))
    (.step (.drop _ true 1 rfl (by decide))
    (.step (.loadDrop _ true 1 (-1) _ _ rfl rfl (Or.inl rfl))
    (.step (.finishLastDrop _ true 1 (-1) _ _ rfl rfl rfl)
    (.step (.loadDrop _ true 0 (-2) _ _ rfl rfl (Or.inl rfl))
    (.step (.finishDrop _ true 0 (-2) _ _ rfl rfl rfl)
    (.step (.free _ true 1 _ _ rfl rfl)
    (.step (.drop _ true 0 rfl (by decide))
    (.step (.loadDrop _ true 0 (-1) _ _ rfl rfl (Or.inl rfl))
    (.step (.finishLastDrop _ true 0 (-1) _ _ rfl rfl rfl)
    (.step (.free _ true 0 _ _ rfl rfl) (.refl _)))))))))))))))))))))) (.initial 0), ?_, ?_, ?_⟩
  · intro t; cases t <;> rfl
  · rfl
  · rfl

/-- C60 fails for the code as it is. A record is synchronized and then updated in place, because its count is that of a
unique record (expression.rs:88-167), with a record that is not synchronized. Another thread gets a reference to
the outer record; both threads read the field and increment its count, not atomically. This is a data race, one of the
increments is lost, and the inner record is freed while the outer one refers to it. Then it is used. -/
theorem c60_update_race : ∃ s : State Bool, Reachable false s ∧ s.race ∧ s.broken := by
  refine ⟨_, Steps.reachable (s := State.initial 0)
    (.step (.allocate _ false [none] rfl (by decide))
    (.step (.sync _ false 0 rfl (by decide))
    (.step (.loadSync _ false 0 0 _ _ rfl rfl (Or.inl rfl))
    (.step (.finishSync _ false 0 0 _ _ rfl rfl rfl)
    (.step (.allocate _ false [] rfl (by decide))
    (.step (.update _ false 0 0 1 rfl (by decide))
    (.step (.startUpdate _ false 0 0 1 (-1) _ _ _ rfl rfl ⟨Or.inl rfl, fun _ => rfl⟩ rfl rfl (fun h => by cases h))
    (.step (.finishUpdate _ false 0 0 1 _ _ rfl rfl)
    (.step (.clone _ false 0 rfl (by decide))
    (.step (.loadClone _ false 0 (-1) _ _ rfl rfl (Or.inl rfl))
    (.step (.finishClone _ false 0 (-1) _ _ rfl rfl (Or.inr (by decide)))
    (.step (.send _ false true 0 _ rfl rfl (by decide) rfl rfl)
    -- both threads read the field
    (.step (.field _ false 0 _ 1 rfl (by decide) rfl (by decide))
    (.step (.loadClone _ false 1 0 _ _ rfl rfl (Or.inl rfl))
    (.step (.field _ true 0 _ 1 rfl (by decide) rfl (by decide))
    (.step (.loadClone _ true 1 0 _ _ rfl rfl (Or.inl rfl))
    (.step (.finishClone _ false 1 0 _ _ rfl rfl (Or.inr (by decide)))
    (.step (.finishClone _ true 1 0 _ _ rfl rfl (Or.inr (by decide)))
    -- and drop it
    (.step (.drop _ false 1 rfl (by decide))
    (.step (.loadDrop _ false 1 1 _ _ rfl rfl (Or.inl rfl))
    (.step (.finishDrop _ false 1 1 _ _ rfl rfl rfl)
    (.step (.drop _ true 1 rfl (by decide))
    (.step (.loadDrop _ true 1 0 _ _ rfl rfl (Or.inl rfl))
    (.step (.finishLastDrop _ true 1 0 _ _ rfl rfl rfl)
    (.step (.free _ true 1 _ _ rfl rfl)
    -- and read it again
    (.step (.field _ false 0 _ 1 rfl (by decide) rfl (by decide))
    (.step (.loadClone _ false 1 0 _ _ rfl rfl (Or.inl rfl)) (.refl _)))))))))))))))))))))))))))) (.initial 0), ?_, ?_⟩
  · iterate 8 left
    right
    refine ⟨16, .write, rfl, fun h => ?_, Or.inl rfl⟩
    repeat' first
      | exact absurd (show (16 : Nat) = _ from h) (by decide)
      | exact (show False from h)
      | rcases h with h | h
  · right
    rintro ⟨B, hB, hl⟩
    cases hB; cases hl

end Verif.Runtime.Graph
