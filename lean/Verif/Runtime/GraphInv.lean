import Verif.Runtime.GraphRefs

/-
The invariant of heaps of shared blocks: counts are numbers of references, blocks that are not synchronized belong to one
thread, and all that synchronized blocks refer to is synchronized, or is being synchronized.
-/
namespace Verif.Runtime.Graph

open Verif.Runtime.Arc (isSynchronized staticCount uniqueCount cloneAction dropAction synchronizeAction isUnique)

variable {T : Type} [DecidableEq T]

/-- States without the bookkeeping of events. -/
structure Core (T : Type) where
  heap : List Block
  held : Multiset (T × Addr)
  tasks : T → List Task

def State.core (s : State T) : Core T := ⟨s.heap, s.held, s.tasks⟩

def Core.refs (s : Core T) (b : Addr) : Nat := heldRefs s.held b + fieldRefs s.heap b

def Core.Live (s : Core T) (b : Addr) (B : Block) : Prop := s.heap[b]? = some B ∧ B.status = .live

/-- What a thread can reach. -/
inductive Core.Reach (s : Core T) (t : T) : Addr → Prop
  | held {b : Addr} : (t, b) ∈ s.held → Reach s t b
  | field {a b : Addr} {A : Block} : Reach s t a → s.heap[a]? = some A → some b ∈ A.fields → Reach s t b

/-- What a loaded count says about the current one. -/
def Core.Loaded (s : Core T) (b : Addr) (c : Int) : Prop :=
  ∀ B : Block, s.heap[b]? = some B →
    (0 ≤ B.count → c = B.count) ∧ (B.count < 0 → c < 0 ∧ (c = staticCount ↔ B.count = staticCount))

def Core.Marked (s : Core T) (f : Addr) : Prop := ∃ F : Block, s.heap[f]? = some F ∧ F.count < 0

def Task.isSync : Task → Prop
  | .sync _ => True
  | .syncLoaded _ _ => True
  | _ => False

def Task.consumes : Task → Prop
  | .drop _ => True
  | .dropLoaded _ _ => True
  | .free _ => True
  | .update _ _ _ => True
  | .store _ _ _ => True
  | _ => False

def Task.isLoaded : Task → Prop
  | .cloneLoaded _ _ => True
  | .dropLoaded _ _ => True
  | .syncLoaded _ _ => True
  | _ => False

def pending (f : Addr) (ks : List Task) : Prop := Task.sync f ∈ ks ∨ ∃ c, Task.syncLoaded f c ∈ ks

/-- The lists of tasks there are. -/
def Shape (ks : List Task) : Prop :=
  (∃ b, ks = [.clone b]) ∨ (∃ b c, ks = [.cloneLoaded b c]) ∨ (∀ k ∈ ks, k.isSync) ∨ (∀ k ∈ ks, k.consumes)

/-- What is known about blocks in tasks. -/
def TaskOk (s : Core T) (owner : Addr → Option T) (t : T) : Task → Prop
  | .clone b => s.Reach t b
  | .cloneLoaded b c => s.Reach t b ∧ s.Loaded b c
  | .drop _ => True
  | .dropLoaded b c => s.Loaded b c
  | .free b => ∃ B : Block, s.heap[b]? = some B ∧ B.status = .dying
  | .sync b => s.Reach t b
  | .syncLoaded b c => s.Reach t b ∧ s.Loaded b c
  | .update _ _ _ => True
  | .store b i g => s.refs b = 1 ∧ (∃ B : Block, s.heap[b]? = some B ∧ B.fields[i]? = some none) ∧ (owner b = none → owner g = none)

/-- The invariant. `owner` says which thread a block belongs to, if it is not shared. -/
structure Inv (s : Core T) (owner : Addr → Option T) : Prop where
  target : ∀ b, 0 < s.refs b → ∃ B, s.Live b B
  counted : ∀ b B, s.Live b B → B.count ≠ staticCount →
    0 < s.refs b ∧ (B.count = s.refs b - 1 ∨ B.count = -s.refs b) ∧ staticCount < B.count ∧ B.count < 2 ^ 63 - 1
  owned : ∀ b B, s.Live b B → 0 ≤ B.count → ∃ t, owner b = some t
  ownerLive : ∀ b t, owner b = some t → ∃ B, s.Live b B
  ownerHeld : ∀ b t t', owner b = some t → (t', b) ∈ s.held → t' = t
  ownerField : ∀ (b : Addr) (t : T) (a : Addr) (A : Block), owner b = some t → s.heap[a]? = some A → some b ∈ A.fields → owner a = some t
  statics : ∀ b B, s.Live b B → B.count = staticCount → owner b = none ∧ B.fields = []
  dead : ∀ (b : Addr) (B : Block), s.heap[b]? = some B → B.status ≠ .live → B.fields = [] ∧ B.count ≠ staticCount
  marked : ∀ b B t, s.Live b B → owner b = some t → B.count < 0 →
    (∀ k ∈ s.tasks t, k.isSync) ∧ ∀ f, some f ∈ B.fields → s.Marked f ∨ pending f (s.tasks t)
  taskOk : ∀ t k, k ∈ s.tasks t → TaskOk s owner t k
  needs : ∀ t, needsOf t (s.tasks t) ≤ s.held
  shape : ∀ t, Shape (s.tasks t)
  loadedHead : ∀ t, ∀ k ∈ (s.tasks t).tail, ¬ k.isLoaded
  frees : ∀ t b, (s.tasks t).count (.free b) ≤ 1
  freesOnce : ∀ t t' b, Task.free b ∈ s.tasks t → Task.free b ∈ s.tasks t' → t = t'
  dying : ∀ (b : Addr) (B : Block), s.heap[b]? = some B → B.status = .dying → ∃ t, Task.free b ∈ s.tasks t

/-! ### Consequences -/

theorem Core.Reach.refs {s : Core T} {t : T} {b : Addr} (h : s.Reach t b) : 0 < s.refs b := by
  cases h with
  | held h => have := heldRefs_pos h; unfold Core.refs; omega
  | field _ ha hb => have := fieldRefs_of_mem ha hb; unfold Core.refs; omega

theorem Core.refs_held {s : Core T} {t : T} {b : Addr} (h : (t, b) ∈ s.held) : 0 < s.refs b := (Reach.held h).refs

theorem Inv.reach_live {s : Core T} {owner : Addr → Option T} (h : Inv s owner) {t : T} {b : Addr} (hr : s.Reach t b) :
    ∃ B, s.Live b B := h.target b hr.refs

theorem Inv.owner_reach {s : Core T} {owner : Addr → Option T} (h : Inv s owner) {t t' : T} {b : Addr}
    (hr : s.Reach t' b) (ho : owner b = some t) : t' = t := by
  induction hr with
  | held hh => exact h.ownerHeld _ _ _ ho hh
  | field _ ha hb ih => exact ih (h.ownerField _ _ _ _ ho ha hb)

/-- The only reference to a block that has one. -/
theorem Core.unique_ref {s : Core T} {t : T} {b : Addr} (h1 : s.refs b = 1) (hh : (t, b) ∈ s.held) :
    (∀ t', (t', b) ∈ s.held → t' = t) ∧ (∀ (a : Addr) (A : Block), s.heap[a]? = some A → some b ∉ A.fields) := by
  have hp := heldRefs_pos hh
  unfold Core.refs at h1
  refine ⟨fun t' h' => held_unique hh h' (by omega), fun a A ha hm => ?_⟩
  have := fieldRefs_of_mem ha hm
  omega

theorem Core.unique_reach {s : Core T} {t t' : T} {b : Addr} (h1 : s.refs b = 1) (hh : (t, b) ∈ s.held)
    (hr : s.Reach t' b) : t' = t := by
  cases hr with
  | held h' => exact (Core.unique_ref h1 hh).1 _ h'
  | field _ ha hb => exact absurd hb ((Core.unique_ref h1 hh).2 _ _ ha)

theorem mem_of_needs {s : Core T} {owner : Addr → Option T} (h : Inv s owner) {t : T} {k : Task} {b : Addr}
    (hk : k ∈ s.tasks t) (hb : b ∈ k.needs) : (t, b) ∈ s.held := by
  apply Multiset.mem_of_le (h.needs t)
  simp only [needsOf, Multiset.mem_coe, List.mem_map, List.mem_flatMap, Prod.mk.injEq]
  exact ⟨b, ⟨k, hk, hb⟩, trivial, rfl⟩

theorem Core.Reach.mono {s s' : Core T} {t : T} (hh : ∀ x, (t, x) ∈ s.held → (t, x) ∈ s'.held)
    (hf : ∀ (a : Addr) (A : Block), s.Reach t a → s.heap[a]? = some A → ∃ A' : Block, s'.heap[a]? = some A' ∧ ∀ f, some f ∈ A.fields → some f ∈ A'.fields)
    {x : Addr} (h : s.Reach t x) : s'.Reach t x := by
  induction h with
  | held h => exact .held (hh _ h)
  | field hr ha hb ih =>
    obtain ⟨A', ha', hA⟩ := hf _ _ hr ha
    exact .field ih ha' (hA _ hb)

/-- What a step of another thread leaves alone. -/
structure Frame (s s' : Core T) (owner owner' : Addr → Option T) (t : T) : Prop where
  tasks : s'.tasks t = s.tasks t
  reach : ∀ x, s.Reach t x → s'.Reach t x
  loaded : ∀ x c, s.Reach t x → s.Loaded x c → s'.Loaded x c
  dying : ∀ (x : Addr) (B : Block), s.heap[x]? = some B → B.status = .dying → Task.free x ∈ s.tasks t →
    ∃ B' : Block, s'.heap[x]? = some B' ∧ B'.status = .dying
  store : ∀ x : Addr, s.refs x = 1 → (t, x) ∈ s.held → s'.refs x = 1 ∧
    ∀ B : Block, s.heap[x]? = some B → ∃ B' : Block, s'.heap[x]? = some B' ∧ B'.fields = B.fields
  owner : ∀ x g, (t, x) ∈ s.held → (t, g) ∈ s.held → (owner x = none → owner g = none) → (owner' x = none → owner' g = none)
  needs : needsOf t (s.tasks t) ≤ s.held → needsOf t (s.tasks t) ≤ s'.held

theorem Frame.taskOk {s s' : Core T} {owner owner' : Addr → Option T} {t : T} (f : Frame s s' owner owner' t)
    (hi : Inv s owner) {k : Task} (hk : k ∈ s'.tasks t) : TaskOk s' owner' t k := by
  rw [f.tasks] at hk
  have h := hi.taskOk t k hk
  cases k with
  | clone b => exact f.reach _ h
  | cloneLoaded b c => exact ⟨f.reach _ h.1, f.loaded _ _ h.1 h.2⟩
  | drop b => trivial
  | dropLoaded b c => exact f.loaded _ _ (.held (mem_of_needs hi hk (by simp [Task.needs]))) h
  | free b =>
    obtain ⟨B, hB, hs⟩ := h
    exact f.dying _ _ hB hs hk
  | sync b => exact f.reach _ h
  | syncLoaded b c => exact ⟨f.reach _ h.1, f.loaded _ _ h.1 h.2⟩
  | update b i g => trivial
  | store b i g =>
    have hb : (t, b) ∈ s.held := mem_of_needs hi hk (by simp [Task.needs])
    obtain ⟨h1, ⟨B, hB, hn⟩, ho⟩ := h
    have hs := f.store b h1 hb
    obtain ⟨B', hB', hf⟩ := hs.2 B hB
    exact ⟨hs.1, ⟨B', hB', by rw [hf]; exact hn⟩, f.owner b g hb (mem_of_needs hi hk (by simp [Task.needs])) ho⟩

theorem Frame.needsLe {s s' : Core T} {owner owner' : Addr → Option T} {t : T} (f : Frame s s' owner owner' t)
    (hi : Inv s owner) : needsOf t (s'.tasks t) ≤ s'.held := by
  rw [f.tasks]; exact f.needs (hi.needs t)

/-- The invariant after a step of thread `t`, which gets the tasks `ks`. -/
theorem Inv.build {s s' : Core T} {owner owner' : Addr → Option T} (h : Inv s owner) {t : T} {ks : List Task}
    (hks : s'.tasks t = ks) (hframe : ∀ t', t' ≠ t → Frame s s' owner owner' t')
    (target : ∀ b, 0 < s'.refs b → ∃ B, s'.Live b B)
    (counted : ∀ b B, s'.Live b B → B.count ≠ staticCount →
      0 < s'.refs b ∧ (B.count = s'.refs b - 1 ∨ B.count = -s'.refs b) ∧ staticCount < B.count ∧ B.count < 2 ^ 63 - 1)
    (owned : ∀ b B, s'.Live b B → 0 ≤ B.count → ∃ t, owner' b = some t)
    (ownerLive : ∀ b t, owner' b = some t → ∃ B, s'.Live b B)
    (ownerHeld : ∀ b t t', owner' b = some t → (t', b) ∈ s'.held → t' = t)
    (ownerField : ∀ (b : Addr) (t : T) (a : Addr) (A : Block), owner' b = some t → s'.heap[a]? = some A →
      some b ∈ A.fields → owner' a = some t)
    (statics : ∀ b B, s'.Live b B → B.count = staticCount → owner' b = none ∧ B.fields = [])
    (dead : ∀ (b : Addr) (B : Block), s'.heap[b]? = some B → B.status ≠ .live → B.fields = [] ∧ B.count ≠ staticCount)
    (marked : ∀ b B t', s'.Live b B → owner' b = some t' → B.count < 0 →
      (∀ k ∈ s'.tasks t', k.isSync) ∧ ∀ f, some f ∈ B.fields → s'.Marked f ∨ pending f (s'.tasks t'))
    (taskOk : ∀ k ∈ ks, TaskOk s' owner' t k) (needs : needsOf t ks ≤ s'.held) (shape : Shape ks)
    (loaded : ∀ k ∈ ks.tail, ¬ k.isLoaded) (frees : ∀ b, ks.count (.free b) ≤ 1)
    (freesOnce : ∀ b, Task.free b ∈ ks → Task.free b ∈ s.tasks t ∨ ∀ t', t' ≠ t → Task.free b ∉ s.tasks t')
    (dying : ∀ (b : Addr) (B : Block), s'.heap[b]? = some B → B.status = .dying →
      Task.free b ∈ ks ∨ ∃ t', t' ≠ t ∧ Task.free b ∈ s.tasks t') : Inv s' owner' := by
  have htasks : ∀ t', t' ≠ t → s'.tasks t' = s.tasks t' := fun t' ht => (hframe t' ht).tasks
  exact {
    target := target
    counted := counted
    owned := owned
    ownerLive := ownerLive
    ownerHeld := ownerHeld
    ownerField := ownerField
    statics := statics
    dead := dead
    marked := marked
    taskOk := by
      intro t' k hk'
      by_cases ht : t' = t
      · subst ht; rw [hks] at hk'; exact taskOk k hk'
      · exact (hframe t' ht).taskOk h hk'
    needs := by
      intro t'
      by_cases ht : t' = t
      · subst ht; rw [hks]; exact needs
      · exact (hframe t' ht).needsLe h
    shape := by
      intro t'
      by_cases ht : t' = t
      · subst ht; rw [hks]; exact shape
      · rw [htasks t' ht]; exact h.shape t'
    loadedHead := by
      intro t'
      by_cases ht : t' = t
      · subst ht; rw [hks]; exact loaded
      · rw [htasks t' ht]; exact h.loadedHead t'
    frees := by
      intro t' b
      by_cases ht : t' = t
      · subst ht; rw [hks]; exact frees b
      · rw [htasks t' ht]; exact h.frees t' b
    freesOnce := by
      have key : ∀ t', t' ≠ t → ∀ b, Task.free b ∈ ks → Task.free b ∈ s.tasks t' → False := by
        intro t' ht b h1 h2
        rcases freesOnce b h1 with h3 | h3
        · exact ht (h.freesOnce t' t b h2 h3)
        · exact h3 t' ht h2
      intro t1 t2 b h1 h2
      by_cases ht1 : t1 = t
      · by_cases ht2 : t2 = t
        · exact ht1.trans ht2.symm
        · subst ht1
          rw [htasks t2 ht2] at h2; rw [hks] at h1
          exact (key t2 ht2 b h1 h2).elim
      · by_cases ht2 : t2 = t
        · subst ht2
          rw [htasks t1 ht1] at h1; rw [hks] at h2
          exact (key t1 ht1 b h2 h1).elim
        · rw [htasks t1 ht1] at h1; rw [htasks t2 ht2] at h2
          exact h.freesOnce t1 t2 b h1 h2
    dying := by
      intro b B hB hd
      rcases dying b B hB hd with h1 | ⟨t', ht, h1⟩
      · exact ⟨t, by rw [hks]; exact h1⟩
      · exact ⟨t', by rw [htasks t' ht]; exact h1⟩ }

/-! ### Steps that change tasks only -/

theorem Inv.setTasks {s : Core T} {owner : Addr → Option T} (h : Inv s owner) (t : T) (ks : List Task)
    (hm : ∀ b B, s.Live b B → owner b = some t → B.count < 0 →
      (∀ k ∈ ks, k.isSync) ∧ ∀ f, some f ∈ B.fields → s.Marked f ∨ pending f ks)
    (hk : ∀ k ∈ ks, TaskOk s owner t k) (hn : needsOf t ks ≤ s.held) (hs : Shape ks)
    (hl : ∀ k ∈ ks.tail, ¬ k.isLoaded) (hf : ∀ b, ks.count (.free b) = (s.tasks t).count (.free b)) :
    Inv { s with tasks := Function.update s.tasks t ks } owner := by
  have htask : ∀ t' k, k ∈ Function.update s.tasks t ks t' → TaskOk s owner t' k := by
    intro t' k hk'
    by_cases ht : t' = t
    · subst ht; rw [Function.update_self] at hk'; exact hk k hk'
    · rw [Function.update_of_ne ht] at hk'; exact h.taskOk t' k hk'
  have hfree : ∀ t' b, Task.free b ∈ Function.update s.tasks t ks t' ↔ Task.free b ∈ s.tasks t' := by
    intro t' b
    by_cases ht : t' = t
    · subst ht; rw [Function.update_self, ← List.count_pos_iff, hf, List.count_pos_iff]
    · rw [Function.update_of_ne ht]
  have conv : ∀ t' k, TaskOk s owner t' k → TaskOk { s with tasks := Function.update s.tasks t ks } owner t' k := by
    intro t' k hk'
    have hr : ∀ x, s.Reach t' x → Core.Reach { s with tasks := Function.update s.tasks t ks } t' x := fun x hx =>
      Core.Reach.mono (s := s) (s' := { s with tasks := Function.update s.tasks t ks }) (fun _ h => h)
        (fun a A _ ha => ⟨A, ha, fun _ h => h⟩) hx
    cases k with
    | clone b => exact hr _ hk'
    | cloneLoaded b c => exact ⟨hr _ hk'.1, hk'.2⟩
    | sync b => exact hr _ hk'
    | syncLoaded b c => exact ⟨hr _ hk'.1, hk'.2⟩
    | drop b => trivial
    | dropLoaded b c => exact hk'
    | free b => exact hk'
    | update b i g => trivial
    | store b i g => exact hk'
  exact {
    target := h.target
    counted := h.counted
    owned := h.owned
    ownerLive := h.ownerLive
    ownerHeld := h.ownerHeld
    ownerField := h.ownerField
    statics := h.statics
    dead := h.dead
    marked := by
      intro b B t' hB ho hc
      by_cases ht : t' = t
      · subst ht; simp only [Function.update_self]; exact hm b B hB ho hc
      · simp only [Function.update_of_ne ht]; exact h.marked b B t' hB ho hc
    taskOk := fun t' k hk' => conv t' k (htask t' k hk')
    needs := by
      intro t'
      by_cases ht : t' = t
      · subst ht; simp only [Function.update_self]; exact hn
      · simp only [Function.update_of_ne ht]; exact h.needs t'
    shape := by
      intro t'
      by_cases ht : t' = t
      · subst ht; simp only [Function.update_self]; exact hs
      · simp only [Function.update_of_ne ht]; exact h.shape t'
    loadedHead := by
      intro t'
      by_cases ht : t' = t
      · subst ht; simp only [Function.update_self]; exact hl
      · simp only [Function.update_of_ne ht]; exact h.loadedHead t'
    frees := by
      intro t' b
      by_cases ht : t' = t
      · subst ht; simp only [Function.update_self]; rw [hf]; exact h.frees t' b
      · simp only [Function.update_of_ne ht]; exact h.frees t' b
    freesOnce := fun t1 t2 b h1 h2 => h.freesOnce t1 t2 b ((hfree t1 b).1 h1) ((hfree t2 b).1 h2)
    dying := by
      intro b B hB hd
      obtain ⟨t', ht'⟩ := h.dying b B hB hd
      exact ⟨t', (hfree t' b).2 ht'⟩ }

/-- A thread without tasks has no synchronized blocks of its own: they are shared. -/
theorem Inv.settle {s : Core T} {owner : Addr → Option T} (h : Inv s owner) {t : T} (ht : s.tasks t = []) :
    ∃ owner', Inv s owner' ∧ (∀ b B, s.Live b B → owner' b = some t → 0 ≤ B.count) ∧
      (∀ b, owner' b = owner b ∨ (owner b = some t ∧ owner' b = none)) := by
  classical
  refine ⟨fun b => if owner b = some t ∧ s.Marked b then none else owner b, ?_, ?_, ?_⟩
  · have hsome : ∀ b t', (if owner b = some t ∧ s.Marked b then none else owner b) = some t' →
        owner b = some t' ∧ ¬ (t' = t ∧ s.Marked b) := by
      intro b t' hb
      split at hb
      · cases hb
      · rename_i hn
        refine ⟨hb, fun ⟨he, hm⟩ => hn ⟨he ▸ hb, hm⟩⟩
    exact {
      target := h.target
      counted := h.counted
      owned := by
        intro b B hB hc
        obtain ⟨t', ht'⟩ := h.owned b B hB hc
        refine ⟨t', ?_⟩
        rw [if_neg]
        · exact ht'
        · rintro ⟨_, F, hF, hc'⟩
          rw [hB.1] at hF; cases hF; omega
      ownerLive := fun b t' hb => h.ownerLive b t' (hsome b t' hb).1
      ownerHeld := fun b t1 t2 hb hh => h.ownerHeld b t1 t2 (hsome b t1 hb).1 hh
      ownerField := by
        intro b t' a A hb ha hm
        obtain ⟨hob, hnot⟩ := hsome b t' hb
        have hoa := h.ownerField b t' a A hob ha hm
        rw [if_neg]
        · exact hoa
        · rintro ⟨he, F, hF, hc⟩
          rw [hoa] at he
          cases he
          rw [ha] at hF; cases hF
          obtain ⟨A', hA'⟩ := h.ownerLive a t hoa
          rw [hA'.1] at ha; cases ha
          rcases (h.marked a _ t hA' hoa hc).2 b hm with hb' | hb'
          · exact hnot ⟨rfl, hb'⟩
          · rw [ht] at hb'
            rcases hb' with hb' | ⟨_, hb'⟩ <;> cases hb'
      statics := by
        intro b B hB hc
        have := h.statics b B hB hc
        refine ⟨?_, this.2⟩
        rw [this.1]; simp
      dead := h.dead
      marked := fun b B t' hB hb hc => h.marked b B t' hB (hsome b t' hb).1 hc
      taskOk := by
        intro t' k hk
        have hne : t' ≠ t := by rintro rfl; rw [ht] at hk; cases hk
        have := h.taskOk t' k hk
        cases k with
        | store b i g =>
          refine ⟨this.1, this.2.1, fun hb => ?_⟩
          have hheld : (t', b) ∈ s.held := mem_of_needs h hk (by simp [Task.needs])
          simp only at hb ⊢
          have hob : owner b = none := by
            by_cases hc : owner b = some t
            · exact absurd (h.ownerHeld b t t' hc hheld) hne
            · rw [if_neg (fun hc' => hc hc'.1)] at hb; exact hb
          rw [this.2.2 hob]; simp
        | _ => exact this
      needs := h.needs
      shape := h.shape
      loadedHead := h.loadedHead
      frees := h.frees
      freesOnce := h.freesOnce
      dying := h.dying }
  · intro b B hB hb
    simp only at hb
    split at hb
    · cases hb
    · rename_i hn
      by_contra hc
      exact hn ⟨hb, B, hB.1, by omega⟩
  · intro b
    by_cases hb : owner b = some t ∧ s.Marked b
    · exact Or.inr ⟨hb.1, if_pos hb⟩
    · exact Or.inl (if_neg hb)

end Verif.Runtime.Graph
