import Verif.Runtime.GraphUpdate

/-
What happens before what: the invariant that excludes data races. All that happened to a block of one thread is known to
that thread; writes to a block are known to all threads that can reach it; and whatever happened to a shared block is
known to a thread through which the block can be reached, or was released with its count.
-/
namespace Verif.Runtime.Graph

open Verif.Runtime.Arc (isSynchronized staticCount uniqueCount synchronizedUniqueCount cloneAction dropAction
  synchronizeAction isUnique)

variable {T : Type} [DecidableEq T]

/-- The events at a block. -/
def State.events (s : State T) (b : Addr) : Set Nat := { i | ∃ l k, s.log[i]? = some (b, l, k) }

/-- The writes to a block. -/
def State.writes (s : State T) (b : Addr) : Set Nat := { i | ∃ l, s.log[i]? = some (b, l, Kind.write) }

/-- The event `i` will be known to whoever gets hold of the last reference to a block. -/
inductive Covered (s : State T) (owner : Addr → Option T) (i : Nat) : Addr → Prop
  | view {b : Addr} : i ∈ s.view b → Covered s owner i b
  | held {b : Addr} {t : T} : (t, b) ∈ s.held → i ∈ s.know t → Covered s owner i b
  | owned {a b : Addr} {A : Block} {t : T} : s.heap[a]? = some A → some b ∈ A.fields → owner a = some t → i ∈ s.know t →
      Covered s owner i b
  | field {a b : Addr} {A : Block} : s.heap[a]? = some A → some b ∈ A.fields → owner a = none → Covered s owner i a →
      Covered s owner i b

structure Know (s : State T) (owner : Addr → Option T) : Prop where
  owned : ∀ b t, owner b = some t → s.events b ⊆ s.know t
  reach : ∀ t b, s.core.Reach t b → s.writes b ⊆ s.know t
  shared : ∀ b B, s.core.Live b B → owner b = none → B.count ≠ staticCount → ∀ i ∈ s.events b, Covered s owner i b
  freeing : ∀ t b, Task.free b ∈ s.tasks t → s.events b ⊆ s.know t
  storing : ∀ t b j g, Task.store b j g ∈ s.tasks t → s.events b ⊆ s.know t
  statics : ∀ (b : Addr) (B : Block), s.heap[b]? = some B → B.count = staticCount → s.writes b = ∅
  bound : ∀ (i : Nat) (b : Addr) (l : Location) (k : Kind), s.log[i]? = some (b, l, k) → b < s.heap.length

/-- Blocks refer to blocks of smaller rank. -/
def Acyclic (heap : List Block) : Prop :=
  ∃ rank : Addr → Nat, ∀ (a b : Addr) (A : Block), heap[a]? = some A → some b ∈ A.fields → rank b < rank a

/-- The invariant. -/
structure Ok (s : State T) (owner : Addr → Option T) : Prop where
  inv : Inv s.core owner
  know : Know s owner
  acyclic : Acyclic s.heap
  broken : ¬ s.broken
  race : ¬ s.race

/-! ### Accesses -/

theorem Reach.covered {s : State T} {owner : Addr → Option T} (h : Inv s.core owner) {t : T} {b : Addr}
    (hr : s.core.Reach t b) {i : Nat} (hi : i ∈ s.know t) : Covered s owner i b := by
  induction hr with
  | held hh => exact .held hh hi
  | @field a b A hr ha hb ih =>
    cases ho : owner a with
    | none => exact .field ha hb ho ih
    | some t' =>
      have := h.owner_reach hr ho
      subst this
      exact .owned ha hb ho hi

theorem Covered.mono {s s' : State T} {owner : Addr → Option T} (hheap : s'.heap = s.heap) (hheld : s'.held = s.held)
    (hk : ∀ t, s.know t ⊆ s'.know t) (hv : ∀ b, s.view b ⊆ s'.view b) {i : Nat} {b : Addr} (h : Covered s owner i b) :
    Covered s' owner i b := by
  induction h with
  | view h => exact .view (hv _ h)
  | held h h' => exact .held (by rw [hheld]; exact h) (hk _ h')
  | owned h1 h2 h3 h4 => exact .owned (by rw [hheap]; exact h1) h2 h3 (hk _ h4)
  | field h1 h2 h3 _ ih => exact .field (by rw [hheap]; exact h1) h2 h3 ih

theorem mem_events_access {s : State T} {st : Status} {t : T} {b x : Addr} {l : Location} {k : Kind} {i : Nat}
    (h : i ∈ (s.accessAs st t b l k).events x) : i ∈ s.events x ∨ (x = b ∧ i = s.log.length) := by
  obtain ⟨l', k', hi⟩ := h
  simp only [State.accessAs] at hi
  rcases Nat.lt_or_ge i s.log.length with hlt | hge
  · rw [List.getElem?_append_left hlt] at hi
    exact Or.inl ⟨l', k', hi⟩
  · rw [List.getElem?_append_right hge] at hi
    have : i - s.log.length = 0 := by
      rcases Nat.eq_zero_or_pos (i - s.log.length) with h0 | h0
      · exact h0
      · rw [List.getElem?_eq_none (by simp only [List.length_singleton]; exact h0)] at hi; cases hi
    rw [this] at hi
    cases hi
    exact Or.inr ⟨rfl, by omega⟩

theorem mem_writes_access {s : State T} {st : Status} {t : T} {b x : Addr} {l : Location} {k : Kind} {i : Nat}
    (h : i ∈ (s.accessAs st t b l k).writes x) : i ∈ s.writes x ∨ (x = b ∧ k = .write ∧ i = s.log.length) := by
  obtain ⟨l', hi⟩ := h
  simp only [State.accessAs] at hi
  rcases Nat.lt_or_ge i s.log.length with hlt | hge
  · rw [List.getElem?_append_left hlt] at hi
    exact Or.inl ⟨l', hi⟩
  · rw [List.getElem?_append_right hge] at hi
    have : i - s.log.length = 0 := by
      rcases Nat.eq_zero_or_pos (i - s.log.length) with h0 | h0
      · exact h0
      · rw [List.getElem?_eq_none (by simp only [List.length_singleton]; exact h0)] at hi; cases hi
    rw [this] at hi
    cases hi
    exact Or.inr ⟨rfl, rfl, by omega⟩

theorem know_access {s : State T} {st : Status} {t t' : T} {b : Addr} {l : Location} {k : Kind} :
    s.know t' ⊆ (s.accessAs st t b l k).know t' := by
  intro i hi
  simp only [State.accessAs]
  by_cases ht : t' = t
  · subst ht; rw [Function.update_self]; exact Set.mem_insert_of_mem _ hi
  · rw [Function.update_of_ne ht]; exact hi

theorem know_access_self {s : State T} {st : Status} {t : T} {b : Addr} {l : Location} {k : Kind} :
    s.log.length ∈ (s.accessAs st t b l k).know t := by
  simp only [State.accessAs]
  rw [Function.update_self]; exact Set.mem_insert _ _

/-- An access is safe, and keeps the invariant, if conflicting events are known, and other threads that know all about the
block do not have to know about it. -/
theorem Ok.accessAs {s : State T} {owner : Addr → Option T} (h : Ok s owner) {st : Status} {t : T} {b : Addr} {B : Block}
    {l : Location} {k : Kind} (hB : s.heap[b]? = some B) (hs : B.status = st)
    (hw : s.writes b ⊆ s.know t) (hx : k = .write → s.events b ⊆ s.know t)
    (hown : ∀ t', owner b = some t' → t' = t) (hreach : k = .write → ∀ t', s.core.Reach t' b → t' = t)
    (hcov : B.status = .live → s.core.Reach t b) (hfree : ∀ t', Task.free b ∈ s.tasks t' → t' = t)
    (hstore : ∀ t' j g, Task.store b j g ∈ s.tasks t' → t' = t) (hst : k = .write → B.count ≠ staticCount) :
    Ok (s.accessAs st t b l k) owner where
  inv := h.inv
  acyclic := h.acyclic
  broken := by
    rintro (h1 | h1)
    · exact h.broken h1
    · exact h1 ⟨B, hB, hs⟩
  race := by
    rintro (h1 | ⟨i, k', hi, hn, hc⟩)
    · exact h.race h1
    · apply hn
      rcases hc with hc | hc
      · exact hx hc ⟨l, k', hi⟩
      · subst hc; exact hw ⟨l, hi⟩
  know :=
    { owned := by
        intro x t' ho i hi
        rcases mem_events_access hi with hi | ⟨rfl, rfl⟩
        · exact know_access (h.know.owned x t' ho hi)
        · rw [hown t' ho]; exact know_access_self
      reach := by
        intro t' x hr i hi
        rcases mem_writes_access hi with hi | ⟨rfl, hk, rfl⟩
        · exact know_access (h.know.reach t' x hr hi)
        · rw [hreach hk t' hr]; exact know_access_self
      shared := by
        intro x X hX ho hc i hi
        have hcov' : ∀ {i x}, Covered s owner i x → Covered (s.accessAs st t b l k) owner i x := fun h =>
          h.mono (by rfl) (by rfl) (fun _ => know_access) (fun _ => subset_rfl)
        rcases mem_events_access hi with hi | ⟨rfl, rfl⟩
        · exact hcov' (h.know.shared x X hX ho hc i hi)
        · have hX1 : s.heap[x]? = some X := hX.1
          rw [hB] at hX1; cases hX1
          have hr := hcov hX.2
          exact Reach.covered (s := s.accessAs st t x l k) h.inv hr know_access_self
      freeing := by
        intro t' x hf i hi
        rcases mem_events_access hi with hi | ⟨rfl, rfl⟩
        · exact know_access (h.know.freeing t' x hf hi)
        · rw [hfree t' hf]; exact know_access_self
      storing := by
        intro t' x j g hf i hi
        rcases mem_events_access hi with hi | ⟨rfl, rfl⟩
        · exact know_access (h.know.storing t' x j g hf hi)
        · rw [hstore t' j g hf]; exact know_access_self
      statics := by
        intro x X hX hc
        rw [Set.eq_empty_iff_forall_notMem]
        intro i hi
        rcases mem_writes_access hi with hi | ⟨rfl, hk, rfl⟩
        · have := h.know.statics x X hX hc
          rw [this] at hi; exact hi
        · have hX1 : s.heap[x]? = some X := hX
          rw [hB] at hX1; cases hX1
          exact hst hk hc
      bound := by
        intro i x l' k' hi
        have : i ∈ (s.accessAs st t b l k).events x := ⟨l', k', hi⟩
        rcases mem_events_access this with ⟨l2, k2, hi⟩ | ⟨rfl, rfl⟩
        · exact h.know.bound i x l2 k2 hi
        · rcases Nat.lt_or_ge x s.heap.length with h' | h'
          · exact h'
          · rw [List.getElem?_eq_none h'] at hB; cases hB }

theorem Ok.reach_facts {s : State T} {owner : Addr → Option T} (h : Ok s owner) {t : T} {b : Addr} (hr : s.core.Reach t b) :
    ∃ B : Block, s.heap[b]? = some B ∧ B.status = .live ∧ (∀ t', owner b = some t' → t' = t) ∧
      (∀ t', Task.free b ∈ s.tasks t' → t' = t) ∧ (∀ t' j g, Task.store b j g ∈ s.tasks t' → t' = t) := by
  obtain ⟨B, hB, hs⟩ := h.inv.reach_live hr
  refine ⟨B, hB, hs, fun t' ho => (h.inv.owner_reach hr ho).symm, ?_, ?_⟩
  · intro t' hf
    obtain ⟨B', hB', hs'⟩ : ∃ B : Block, s.heap[b]? = some B ∧ B.status = .dying := h.inv.taskOk t' _ hf
    have hB : s.heap[b]? = some B := hB
    rw [hB] at hB'; cases hB'
    rw [hs] at hs'; cases hs'
  · intro t' j g hf
    have hh : (t', b) ∈ s.core.held := mem_of_needs h.inv (k := .store b j g) hf (by simp [Task.needs])
    have h1 : s.core.refs b = 1 := (h.inv.taskOk t' _ hf).1
    exact (Core.unique_reach h1 hh hr).symm

/-- Reads, and atomic accesses. -/
theorem Ok.read {s : State T} {owner : Addr → Option T} (h : Ok s owner) {t : T} {b : Addr} (hr : s.core.Reach t b)
    {l : Location} {k : Kind} (hk : k ≠ .write) : Ok (s.access t b l k) owner := by
  obtain ⟨B, hB, hs, h1, h2, h3⟩ := h.reach_facts hr
  exact h.accessAs hB hs (h.know.reach t b hr) (fun e => absurd e hk) h1 (fun e => absurd e hk) (fun _ => hr) h2 h3
    (fun e => absurd e hk)

/-- Writes to blocks that no other thread reaches. -/
theorem Ok.write {s : State T} {owner : Addr → Option T} (h : Ok s owner) {t : T} {b : Addr} (hr : s.core.Reach t b)
    {l : Location} (hx : s.events b ⊆ s.know t) (hreach : ∀ t', s.core.Reach t' b → t' = t)
    (hst : ∀ B : Block, s.heap[b]? = some B → B.count ≠ staticCount) : Ok (s.access t b l .write) owner := by
  obtain ⟨B, hB, hs, h1, h2, h3⟩ := h.reach_facts hr
  exact h.accessAs hB hs (h.know.reach t b hr) (fun _ => hx) h1 (fun _ => hreach) (fun _ => hr) h2 h3 (fun _ => hst B hB)

theorem events_known {s : State T} {st : Status} {t : T} {b x : Addr} {l : Location} {k : Kind}
    (hx : s.events x ⊆ s.know t) : (s.accessAs st t b l k).events x ⊆ (s.accessAs st t b l k).know t := by
  intro i hi
  rcases mem_events_access hi with hi | ⟨_, rfl⟩
  · exact know_access (hx hi)
  · exact know_access_self

theorem Ok.learn {s : State T} {owner : Addr → Option T} (h : Ok s owner) (t : T) (X : Set Nat) : Ok (s.learn t X) owner := by
  have hk : ∀ t', s.know t' ⊆ (s.learn t X).know t' := by
    intro t' i hi
    simp only [State.learn]
    by_cases ht : t' = t
    · subst ht; rw [Function.update_self]; exact Or.inl hi
    · rw [Function.update_of_ne ht]; exact hi
  exact {
    inv := h.inv
    acyclic := h.acyclic
    broken := h.broken
    race := h.race
    know :=
      { owned := fun b t' ho => (h.know.owned b t' ho).trans (hk t')
        reach := fun t' b hr => (h.know.reach t' b hr).trans (hk t')
        shared := fun b B hB ho hc i hi => (h.know.shared b B hB ho hc i hi).mono (s := s) (s' := s.learn t X) rfl rfl hk (fun _ => subset_rfl)
        freeing := fun t' b hf => (h.know.freeing t' b hf).trans (hk t')
        storing := fun t' b j g hf => (h.know.storing t' b j g hf).trans (hk t')
        statics := h.know.statics
        bound := h.know.bound } }

theorem Ok.release {s : State T} {owner : Addr → Option T} (h : Ok s owner) (t : T) (b : Addr) : Ok (s.release t b) owner := by
  have hv : ∀ x, s.view x ⊆ (s.release t b).view x := by
    intro x i hi
    simp only [State.release]
    by_cases hx : x = b
    · subst hx; rw [Function.update_self]; exact Or.inl hi
    · rw [Function.update_of_ne hx]; exact hi
  exact {
    inv := h.inv
    acyclic := h.acyclic
    broken := h.broken
    race := h.race
    know :=
      { owned := h.know.owned
        reach := h.know.reach
        shared := fun x B hB ho hc i hi => (h.know.shared x B hB ho hc i hi).mono (s := s) (s' := s.release t b) rfl rfl (fun _ => subset_rfl) hv
        freeing := h.know.freeing
        storing := h.know.storing
        statics := h.know.statics
        bound := h.know.bound } }

/-! ### Changes of blocks, references and tasks -/

/-- A step that changes blocks, references and tasks. -/
theorem Ok.change {s s' : State T} {owner owner' : Addr → Option T} (h : Ok s owner)
    (hlog : s'.log = s.log) (hknow : ∀ t, s'.know t = s.know t) (hbroken : s'.broken = s.broken) (hrace : s'.race = s.race)
    (hlen : s.heap.length ≤ s'.heap.length) (hinv : Inv s'.core owner') (hacyclic : Acyclic s'.heap)
    (howned : ∀ b t, owner' b = some t → owner b = some t ∨ s.events b ⊆ s.know t)
    (hreach : ∀ t b, s'.core.Reach t b → s.core.Reach t b ∨ s.writes b ⊆ s.know t)
    (hshared : ∀ b B, s'.core.Live b B → owner' b = none → B.count ≠ staticCount → ∀ i ∈ s.events b, Covered s' owner' i b)
    (hfree : ∀ t b, Task.free b ∈ s'.tasks t → Task.free b ∈ s.tasks t ∨ s.events b ⊆ s.know t)
    (hstore : ∀ t b j g, Task.store b j g ∈ s'.tasks t → Task.store b j g ∈ s.tasks t ∨ s.events b ⊆ s.know t)
    (hstatic : ∀ (b : Addr) (B : Block), s'.heap[b]? = some B → B.count = staticCount →
      ∃ B' : Block, s.heap[b]? = some B' ∧ B'.count = staticCount) : Ok s' owner' := by
  have hev : ∀ b, s'.events b = s.events b := by intro b; unfold State.events; rw [hlog]
  have hwr : ∀ b, s'.writes b = s.writes b := by intro b; unfold State.writes; rw [hlog]
  exact {
    inv := hinv
    acyclic := hacyclic
    broken := by rw [hbroken]; exact h.broken
    race := by rw [hrace]; exact h.race
    know :=
      { owned := by
          intro b t ho
          rw [hev, hknow]
          exact (howned b t ho).elim (h.know.owned b t) id
        reach := by
          intro t b hr
          rw [hwr, hknow]
          exact (hreach t b hr).elim (h.know.reach t b) id
        shared := by
          intro b B hB ho hc i hi
          rw [hev] at hi
          exact hshared b B hB ho hc i hi
        freeing := by
          intro t b hf
          rw [hev, hknow]
          exact (hfree t b hf).elim (h.know.freeing t b) id
        storing := by
          intro t b j g hf
          rw [hev, hknow]
          exact (hstore t b j g hf).elim (h.know.storing t b j g) id
        statics := by
          intro b B hB hc
          obtain ⟨B', hB', hc'⟩ := hstatic b B hB hc
          rw [hwr]
          exact h.know.statics b B' hB' hc'
        bound := by
          intro i b l k hi
          rw [hlog] at hi
          exact Nat.lt_of_lt_of_le (h.know.bound i b l k hi) hlen } }

/-- Steps that change tasks only. -/
theorem Ok.setTasks {s : State T} {owner : Addr → Option T} (h : Ok s owner) {t : T} {ks : List Task}
    (hinv : Inv (s.setTasks t ks).core owner) (hfree : ∀ b, Task.free b ∈ ks → Task.free b ∈ s.tasks t)
    (hstore : ∀ b j g, Task.store b j g ∈ ks → Task.store b j g ∈ s.tasks t) : Ok (s.setTasks t ks) owner := by
  have htasks : ∀ t' k, k ∈ (s.setTasks t ks).tasks t' → k ∈ s.tasks t' ∨ (t' = t ∧ k ∈ ks) := by
    intro t' k hk
    simp only [State.setTasks] at hk
    by_cases ht : t' = t
    · subst ht; rw [Function.update_self] at hk; exact Or.inr ⟨rfl, hk⟩
    · rw [Function.update_of_ne ht] at hk; exact Or.inl hk
  refine h.change rfl (fun _ => rfl) rfl rfl (Nat.le_refl _) hinv h.acyclic (fun _ _ h => Or.inl h) ?_ ?_ ?_ ?_ ?_
  · intro t' b hr
    exact Or.inl (hr.mono (s := (s.setTasks t ks).core) (s' := s.core) (fun _ h => h) (fun a A _ hA => ⟨A, hA, fun _ h => h⟩))
  · intro b B hB ho hc i hi
    exact (h.know.shared b B hB ho hc i hi).mono (s := s) (s' := s.setTasks t ks) rfl rfl (fun _ => subset_rfl) (fun _ => subset_rfl)
  · intro t' b hf
    rcases htasks t' _ hf with hf' | ⟨rfl, hf'⟩
    · exact Or.inl hf'
    · exact Or.inl (hfree b hf')
  · intro t' b j g hf
    rcases htasks t' _ hf with hf' | ⟨rfl, hf'⟩
    · exact Or.inl hf'
    · exact Or.inl (hstore b j g hf')
  · intro b B hB hc; exact ⟨B, hB, hc⟩

end Verif.Runtime.Graph
