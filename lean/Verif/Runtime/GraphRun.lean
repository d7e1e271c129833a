import Verif.Runtime.GraphSafe

/-
The emitted functions keep the invariant.
-/
namespace Verif.Runtime.Graph

open Verif.Runtime.Arc (isSynchronized staticCount uniqueCount synchronizedUniqueCount cloneAction dropAction
  synchronizeAction isUnique)

variable {T : Type} [DecidableEq T]

theorem loaded_of_loads {s : Core T} {b : Addr} {B : Block} {c : Int} (hB : s.heap[b]? = some B) (hl : Loads B c) :
    s.Loaded b c := by
  intro B' hB'
  rw [hB] at hB'; cases hB'
  rcases hl with rfl | ⟨h1, h2, h3, h4⟩
  · exact ⟨fun _ => rfl, fun h => ⟨h, Iff.rfl⟩⟩
  · exact ⟨fun h => by omega, fun _ => ⟨h3, by constructor <;> intro h <;> contradiction⟩⟩

/-- A task and the one after its load. -/
inductive LoadTask (b : Addr) (c : Int) : Task → Task → Prop
  | clone : LoadTask b c (.clone b) (.cloneLoaded b c)
  | drop : LoadTask b c (.drop b) (.dropLoaded b c)
  | sync : LoadTask b c (.sync b) (.syncLoaded b c)

theorem LoadTask.reach {s : Core T} {owner : Addr → Option T} (h : Inv s owner) {t : T} {b : Addr} {c : Int} {k k' : Task}
    (hl : LoadTask b c k k') (hk : k ∈ s.tasks t) : s.Reach t b := by
  have hok := h.taskOk t k hk
  cases hl with
  | clone => exact hok
  | drop => exact .held (mem_of_needs h hk (by simp [Task.needs]))
  | sync => exact hok

/-- The loads of `clone`, `drop` and `synchronize`. -/
theorem Ok.load {s : State T} {owner : Addr → Option T} (h : Ok s owner) {t : T} {b : Addr} {c : Int} {B : Block}
    {k k' : Task} {ks : List Task} (ht : s.tasks t = k :: ks) (hB : s.heap[b]? = some B) (hl : Loads B c)
    (hk : LoadTask b c k k') : Ok ((s.access t b .count .atomic).setTasks t (k' :: ks)) owner := by
  have hmem : k ∈ s.core.tasks t := by
    have : s.core.tasks t = k :: ks := ht
    rw [this]; exact List.mem_cons_self
  have hr := hk.reach h.inv hmem
  have hlo : s.core.Loaded b c := loaded_of_loads hB hl
  have htl : ∀ k ∈ ks, k ∈ s.tasks t := fun k hk => by rw [ht]; exact List.mem_cons_of_mem _ hk
  refine (h.read hr (by simp)).setTasks ?_ ?_ ?_
  · refine h.inv.setTasks t (k' :: ks) ?_ ?_ ?_ ?_ ?_ ?_
    · intro x X hX ho hc
      obtain ⟨m1, m2⟩ := h.inv.marked x X t hX ho hc
      have e : s.core.tasks t = k :: ks := ht
      rw [e] at m1 m2
      have hks := m1 k List.mem_cons_self
      cases hk with
      | clone => exact absurd hks id
      | drop => exact absurd hks id
      | sync =>
        refine ⟨fun k' hk' => ?_, fun f hf => (m2 f hf).imp id ?_⟩
        · rcases List.mem_cons.1 hk' with rfl | hk'
          · trivial
          · exact m1 k' (List.mem_cons_of_mem _ hk')
        · intro hp
          rcases pending_cons hp with hp | ⟨_, hp⟩ | hp
          · cases hp; exact Or.inr ⟨c, List.mem_cons_self⟩
          · cases hp
          · rcases hp with hp | ⟨c', hp⟩
            · exact Or.inl (List.mem_cons_of_mem _ hp)
            · exact Or.inr ⟨c', List.mem_cons_of_mem _ hp⟩
    · intro k2 hk2
      rcases List.mem_cons.1 hk2 with rfl | hk2
      · cases hk with
        | clone => exact ⟨hr, hlo⟩
        | drop => exact hlo
        | sync => exact ⟨hr, hlo⟩
      · exact h.inv.taskOk t k2 (htl k2 hk2)
    · have := h.inv.needs t
      have e : s.core.tasks t = k :: ks := ht
      rw [e] at this
      rw [needsOf_cons] at this ⊢
      cases hk <;> exact this
    · have := h.inv.shape t
      have e : s.core.tasks t = k :: ks := ht
      rw [e] at this
      cases hk with
      | clone =>
        have : ks = [] := by
          rcases this with ⟨_, h⟩ | ⟨_, _, h⟩ | h | h
          · cases h; rfl
          · cases h
          · exact absurd (h _ List.mem_cons_self) id
          · exact absurd (h _ List.mem_cons_self) id
        subst this
        exact Or.inr (Or.inl ⟨b, c, rfl⟩)
      | drop =>
        refine Or.inr (Or.inr (Or.inr fun k' hk' => ?_))
        rcases List.mem_cons.1 hk' with rfl | hk'
        · trivial
        · exact shape_consumes this trivial k' hk'
      | sync =>
        refine Or.inr (Or.inr (Or.inl fun k' hk' => ?_))
        rcases List.mem_cons.1 hk' with rfl | hk'
        · trivial
        · exact shape_sync this trivial k' hk'
    · intro k2 hk2
      have := h.inv.loadedHead t k2
      have e : s.core.tasks t = k :: ks := ht
      rw [e] at this
      exact this hk2
    · intro x
      have e : s.core.tasks t = k :: ks := ht
      rw [e, List.count_cons, List.count_cons]
      cases hk <;> rfl
  · intro x hx
    rcases List.mem_cons.1 hx with e | e
    · cases hk <;> cases e
    · exact htl _ e
  · intro x j g hx
    rcases List.mem_cons.1 hx with e | e
    · cases hk <;> cases e
    · exact htl _ e

/-- `synchronize` of a synchronized block. -/
theorem Ok.synchronized {s : State T} {owner : Addr → Option T} (h : Ok s owner) {t : T} {b : Addr} {c : Int}
    {ks : List Task} (ht : s.tasks t = .syncLoaded b c :: ks) (hc : isSynchronized c = true) :
    Ok (s.setTasks t ks) owner := by
  rw [isSynchronized_iff] at hc
  have e : s.core.tasks t = .syncLoaded b c :: ks := ht
  have hmem : Task.syncLoaded b c ∈ s.core.tasks t := by rw [e]; exact List.mem_cons_self
  have htl : ∀ k ∈ ks, k ∈ s.tasks t := fun k hk => by rw [ht]; exact List.mem_cons_of_mem _ hk
  obtain ⟨hr, hlo⟩ := h.inv.taskOk t _ hmem
  have hall := shape_sync (k := .syncLoaded b c) (e ▸ h.inv.shape t) trivial
  refine h.setTasks ?_ (fun x hx => htl _ hx) (fun x j g hx => htl _ hx)
  refine h.inv.setTasks t ks ?_ (fun k hk => h.inv.taskOk t k (htl k hk)) ?_ (Or.inr (Or.inr (Or.inl hall))) ?_ ?_
  · intro x X hX ho hcx
    obtain ⟨m1, m2⟩ := h.inv.marked x X t hX ho hcx
    refine ⟨hall, fun f hf => ?_⟩
    rcases m2 f hf with m | m
    · exact Or.inl m
    · rw [e] at m
      rcases pending_cons m with m | ⟨_, m⟩ | m
      · cases m
      · cases m
        left
        obtain ⟨B, hB, _⟩ := h.inv.reach_live hr
        refine ⟨B, hB, ?_⟩
        have := (hlo B hB).1
        omega
      · exact Or.inr m
  · rw [needsOf_sync hall]; exact Multiset.zero_le _
  · intro k hk
    exact h.inv.loadedHead t k (by rw [e]; exact List.mem_of_mem_tail hk)
  · intro x
    rw [e, List.count_cons]; simp

/-- `RecordUpdate` of a record that is not unique. -/
theorem Ok.notUnique {s : State T} {owner : Addr → Option T} (h : Ok s owner) {t : T} {b g : Addr} {i : Nat}
    {ks : List Task} (ht : s.tasks t = .update b i g :: ks) : Ok ((s.access t b .count .atomic).setTasks t ks) owner := by
  have e : s.core.tasks t = .update b i g :: ks := ht
  have hmem : Task.update b i g ∈ s.core.tasks t := by rw [e]; exact List.mem_cons_self
  have htl : ∀ k ∈ ks, k ∈ s.tasks t := fun k hk => by rw [ht]; exact List.mem_cons_of_mem _ hk
  have hr : s.core.Reach t b := .held (mem_of_needs h.inv hmem (by simp [Task.needs]))
  have hall := shape_consumes (k := .update b i g) (e ▸ h.inv.shape t) trivial
  refine (h.read hr (by simp)).setTasks ?_ (fun x hx => htl _ hx) (fun x j g hx => htl _ hx)
  refine h.inv.setTasks t ks ?_ (fun k hk => h.inv.taskOk t k (htl k hk)) ?_ (Or.inr (Or.inr (Or.inr hall))) ?_ ?_
  · intro x X hX ho hcx
    have := h.inv.private_pos hmem (by simp [Task.isSync]) hX ho
    omega
  · have := h.inv.needs t
    rw [e, needsOf_cons] at this
    exact (Multiset.le_add_left _ _).trans this
  · intro k hk
    exact h.inv.loadedHead t k (by rw [e]; exact List.mem_of_mem_tail hk)
  · intro x
    rw [e, List.count_cons]; simp

/-- Changes of counts, tasks, and references that do not matter to other blocks. -/
theorem Ok.recount {s : State T} {owner : Addr → Option T} (h : Ok s owner) {t : T} {b : Addr} {B : Block} {n : Int}
    {held' : Multiset (T × Addr)} {ks : List Task} (hB : s.heap[b]? = some B)
    (hinv : Inv ⟨s.heap.set b { B with count := n }, held', Function.update s.tasks t ks⟩ owner)
    (hheld : ∀ t' x, (t', x) ∈ held' → s.core.Reach t' x)
    (hcov : ∀ x t' i, (t', x) ∈ s.held → i ∈ s.know t' → owner x = none →
      (∀ B : Block, s.heap[x]? = some B → B.count ≠ staticCount) → (t', x) ∈ held' ∨ i ∈ s.view x)
    (hn : n = staticCount → B.count = staticCount) (hn' : n ≠ staticCount → B.count ≠ staticCount)
    (hfree : ∀ b, Task.free b ∈ ks → Task.free b ∈ s.tasks t)
    (hstore : ∀ b j g, Task.store b j g ∈ ks → Task.store b j g ∈ s.tasks t) :
    Ok (({ s with heap := s.heap.set b { B with count := n }, held := held' } : State T).setTasks t ks) owner := by
  have hget : ∀ x, (s.heap.set b { B with count := n })[x]? = if x = b then some { B with count := n } else s.heap[x]? :=
    heap_set hB _
  have hold : ∀ (x : Addr) (X' : Block), (s.heap.set b { B with count := n })[x]? = some X' →
      ∃ X : Block, s.heap[x]? = some X ∧ X'.fields = X.fields ∧ X'.status = X.status ∧
        (X'.count = staticCount → X.count = staticCount) ∧ (X'.count ≠ staticCount → X.count ≠ staticCount) := by
    intro x X' hX
    rw [hget] at hX
    split at hX
    · rename_i he
      subst he
      cases hX
      exact ⟨B, hB, rfl, rfl, hn, hn'⟩
    · exact ⟨X', hX, rfl, rfl, id, id⟩
  have hnew : ∀ (x : Addr) (X : Block), s.heap[x]? = some X → ∃ X' : Block,
      (s.heap.set b { B with count := n })[x]? = some X' ∧ X'.fields = X.fields := by
    intro x X hX
    by_cases he : x = b
    · subst he
      rw [hB] at hX; cases hX
      exact ⟨{ B with count := n }, by rw [hget, if_pos rfl], rfl⟩
    · exact ⟨X, by rw [hget, if_neg he]; exact hX, rfl⟩
  have htasks : ∀ t' k, k ∈ Function.update s.tasks t ks t' → k ∈ s.tasks t' ∨ (t' = t ∧ k ∈ ks) := by
    intro t' k hk
    by_cases ht : t' = t
    · subst ht; rw [Function.update_self] at hk; exact Or.inr ⟨rfl, hk⟩
    · rw [Function.update_of_ne ht] at hk; exact Or.inl hk
  refine h.change rfl (fun _ => rfl) rfl rfl (by simp [State.setTasks]) hinv ?_ (fun _ _ h => Or.inl h) ?_ ?_ ?_ ?_ ?_
  · refine h.acyclic.sub fun a b A' ha hb => ?_
    obtain ⟨A, hA, hf, _⟩ := hold a A' ha
    exact ⟨A, hA, by rw [← hf]; exact hb⟩
  · intro t' x hr
    left
    refine hr.sub (s := s.core) (fun y hy => hheld t' y hy) (fun a A' y ha hA' hy => ?_)
    obtain ⟨A, hA, hf, _⟩ := hold a A' hA'
    exact .field ha hA (by rw [← hf]; exact hy)
  · intro x X' hX' ho hc i hi
    obtain ⟨X, hX, _, hs, _, hc'⟩ := hold x X' hX'.1
    have hXl : s.core.Live x X := ⟨hX, by rw [← hs]; exact hX'.2⟩
    refine Covered.transfer (P := fun x => owner x = none ∧ ∀ B : Block, s.heap[x]? = some B → B.count ≠ staticCount)
      (s := s) (owner := owner) ?_ ?_ ?_ ?_ (h.know.shared x X hXl ho (hc' hc) i hi) ⟨ho, ?_⟩
    · intro y _ hv; exact .view hv
    · intro y t' hy h1 h2
      rcases hcov y t' i h1 h2 hy.1 hy.2 with h3 | h3
      · exact .held h3 h2
      · exact .view h3
    · intro a A y t' _ h1 h2 h3 h4
      obtain ⟨A', hA', hf⟩ := hnew a A h1
      exact .owned hA' (by rw [hf]; exact h2) h3 h4
    · intro a A y _ h1 h2 h3 _ ih
      obtain ⟨A', hA', hf⟩ := hnew a A h1
      refine .field hA' (by rw [hf]; exact h2) h3 (ih ⟨h3, fun A2 hA2 => ?_⟩)
      rw [h1] at hA2; cases hA2
      exact (parent_live h.inv (a := a) h1 h2).2
    · intro X2 hX2
      have hX : s.heap[x]? = some X := hX
      rw [hX] at hX2; cases hX2
      exact hc' hc
  · intro t' x hf
    rcases htasks t' _ hf with hf' | ⟨rfl, hf'⟩
    · exact Or.inl hf'
    · exact Or.inl (hfree x hf')
  · intro t' x j g hf
    rcases htasks t' _ hf with hf' | ⟨rfl, hf'⟩
    · exact Or.inl hf'
    · exact Or.inl (hstore x j g hf')
  · intro x X' hX' hc
    obtain ⟨X, hX, _, _, hc', _⟩ := hold x X' hX'
    exact ⟨X, hX, hc' hc⟩

/-- A block that is not synchronized belongs to the thread that reaches it. -/
theorem Ok.private_facts {s : State T} {owner : Addr → Option T} (h : Ok s owner) {t : T} {b : Addr} {B : Block}
    (hB : s.heap[b]? = some B) (hr : s.core.Reach t b) (hc : 0 ≤ B.count) :
    owner b = some t ∧ s.events b ⊆ s.know t ∧ (∀ t', s.core.Reach t' b → t' = t) ∧
      ∀ B : Block, s.heap[b]? = some B → B.count ≠ staticCount := by
  obtain ⟨B0, hB0⟩ := h.inv.reach_live hr
  have hl : s.core.Live b B := by
    have h1 : s.heap[b]? = some B0 := hB0.1
    rw [hB] at h1; cases h1; exact hB0
  obtain ⟨t', ht'⟩ := h.inv.owned b B hl hc
  have := h.inv.owner_reach hr ht'
  subst this
  refine ⟨ht', h.know.owned b t ht', fun t2 h2 => h.inv.owner_reach h2 ht', fun B2 hB2 => ?_⟩
  rw [hB] at hB2; cases hB2
  rw [staticCount_eq]; omega

theorem Ok.finishClone {s : State T} {owner : Addr → Option T} (h : Ok s owner) {t : T} {b : Addr} {c : Int} {B : Block}
    {ks : List Task} (ht : s.tasks t = .cloneLoaded b c :: ks) (hB : s.heap[b]? = some B)
    (hfit : Fits B (cloneAction c B.count)) : Ok (s.finishClone t b c ks B) owner := by
  have e : s.core.tasks t = .cloneLoaded b c :: ks := ht
  have hmem : Task.cloneLoaded b c ∈ s.core.tasks t := by rw [e]; exact List.mem_cons_self
  have htl : ∀ k ∈ ks, k ∈ s.tasks t := fun k hk => by rw [ht]; exact List.mem_cons_of_mem _ hk
  obtain ⟨hr, hlo⟩ := h.inv.taskOk t _ hmem
  have hlo := hlo B hB
  have hst := staticCount_eq
  have h1 : Ok (s.accessCount t b (cloneAccess c)) owner := by
    unfold cloneAccess
    by_cases hs : isSynchronized c = true
    · simp only [hs, Bool.not_true, Bool.false_eq_true, if_false]
      split
      · exact h.read hr (by simp)
      · exact h
    · have hs : isSynchronized c = false := by simpa using hs
      simp only [hs, Bool.not_false, if_true]
      rw [isSynchronized_false] at hs
      have h0 : 0 ≤ B.count := by
        by_contra hn
        have := (hlo.2 (by omega)).1
        omega
      obtain ⟨_, h2, h3, h4⟩ := h.private_facts hB hr h0
      exact h.write hr h2 h3 h4
  have hcore : (s.accessCount t b (cloneAccess c)).core = s.core := by
    unfold State.accessCount
    split <;> rfl
  have hinv := h.inv.clone e hB hfit
  unfold State.finishClone
  simp only
  generalize s.accessCount t b (cloneAccess c) = s1 at *
  have hheap : s1.heap = s.heap := congrArg Core.heap hcore
  have hheld : s1.held = s.held := congrArg Core.held hcore
  have htasks : s1.tasks = s.tasks := congrArg Core.tasks hcore
  refine h1.recount (by rw [hheap]; exact hB) ?_ ?_ ?_ ?_ ?_ ?_ ?_
  · rw [hheap, hheld, htasks]; exact hinv
  · rw [hcore, hheld]
    intro t' x hx
    rcases Multiset.mem_cons.1 hx with hx | hx
    · cases hx; exact hr
    · exact .held hx
  · intro x t' i hx _ _ _
    exact Or.inl (Multiset.mem_cons_of_mem hx)
  · intro hn
    rcases hfit with hf | hf
    · exact hf
    · omega
  · intro hn hc
    apply hn
    have hcs := (hlo.2 (by omega)).2.2 hc
    rw [hc, hcs]; rfl
  · rw [htasks]; exact fun x hx => htl _ hx
  · rw [htasks]; exact fun x j g hx => htl _ hx

theorem Ok.finishSync {s : State T} {owner : Addr → Option T} (h : Ok s owner) {t : T} {b : Addr} {c : Int} {B : Block}
    {ks : List Task} (ht : s.tasks t = .syncLoaded b c :: ks) (hB : s.heap[b]? = some B)
    (hc : isSynchronized c = false) : Ok (s.finishSync t b c ks B) owner := by
  have e : s.core.tasks t = .syncLoaded b c :: ks := ht
  have hmem : Task.syncLoaded b c ∈ s.core.tasks t := by rw [e]; exact List.mem_cons_self
  have htl : ∀ k ∈ ks, k ∈ s.tasks t := fun k hk => by rw [ht]; exact List.mem_cons_of_mem _ hk
  obtain ⟨hr, hlo⟩ := h.inv.taskOk t _ hmem
  have hlo := hlo B hB
  have hst := staticCount_eq
  obtain ⟨hinv, hl, ho⟩ := h.inv.sync e hB hc
  rw [isSynchronized_false] at hc
  have h0 : 0 ≤ B.count := by
    by_contra hn
    have := (hlo.2 (by omega)).1
    omega
  obtain ⟨_, h2, h3, h4⟩ := h.private_facts hB hr h0
  have h1 := (h.write hr (l := .count) h2 h3 h4).read hr (l := .content) (k := .read) (by simp)
  unfold State.finishSync
  simp only
  refine h1.recount hB hinv ?_ ?_ ?_ ?_ ?_ ?_
  · intro t' x hx; exact .held hx
  · intro x t' i hx _ _ _; exact Or.inl hx
  · intro hn
    exfalso
    have hcb := hlo.1 h0
    obtain ⟨_, _, hb1, hb2⟩ := h.inv.counted b B hl (by omega)
    simp only [synchronizeAction, isSynchronized_false.2 hc, Bool.not_false, if_true, synchronizedUniqueCount] at hn
    omega
  · intro _; omega
  · intro x hx
    rcases List.mem_append.1 hx with hx | hx
    · obtain ⟨_, _, hf⟩ := List.mem_map.1 hx; cases hf
    · exact htl _ hx
  · intro x j g hx
    rcases List.mem_append.1 hx with hx | hx
    · obtain ⟨_, _, hf⟩ := List.mem_map.1 hx; cases hf
    · exact htl _ hx

theorem Ok.finishDrop {s : State T} {owner : Addr → Option T} (h : Ok s owner) {t : T} {b : Addr} {c : Int} {B : Block}
    {ks : List Task} (ht : s.tasks t = .dropLoaded b c :: ks) (hB : s.heap[b]? = some B)
    (hlast : (dropAction c B.count).2 = false) : Ok (s.finishDrop t b c ks B) owner := by
  have e : s.core.tasks t = .dropLoaded b c :: ks := ht
  have hmem : Task.dropLoaded b c ∈ s.core.tasks t := by rw [e]; exact List.mem_cons_self
  have htl : ∀ k ∈ ks, k ∈ s.tasks t := fun k hk => by rw [ht]; exact List.mem_cons_of_mem _ hk
  have hst := staticCount_eq
  obtain ⟨hheld, hlive, hcases⟩ := h.inv.drop_cases e hB
  have hr : s.core.Reach t b := .held hheld
  have hinv := h.inv.drop e hB hlast
  -- the access, and what is released
  have key : ∃ s1 : State T, (if dropAccess c = some .atomic then (s.accessCount t b (dropAccess c)).release t b
        else s.accessCount t b (dropAccess c)) = s1 ∧ Ok s1 owner ∧ s1.core = s.core ∧
      (owner b = none → B.count ≠ staticCount → s1.know t ⊆ s1.view b) ∧
      ((dropAction c B.count).1 = staticCount ↔ B.count = staticCount) := by
    rcases hcases with ⟨h1, h2, h3⟩ | ⟨_, _, _, h3⟩ | ⟨h1, h2, h4, h3⟩ | ⟨_, _, _, _, _, h3⟩ | ⟨h1, h4, h5, h6, h7, h3⟩
    · have hd : dropAccess c = none := by rw [h2]; rfl
      refine ⟨_, rfl, ?_⟩
      rw [hd]
      simp only [reduceCtorEq, if_false]
      exact ⟨h, rfl, fun _ hc => absurd h1 hc, by rw [h3]; simp [h1]⟩
    · rw [h3] at hlast; cases hlast
    · have hs : isSynchronized c = false := by rw [isSynchronized_false, h2]; exact h1
      have hcp := h.inv.count_pos hlive h1
      have hcn : c ≠ uniqueCount := by simp only [uniqueCount]; omega
      have hd : dropAccess c = some .write := by simp [dropAccess, hs, hcn]
      refine ⟨_, rfl, ?_⟩
      rw [hd]
      simp only [Option.some.injEq, reduceCtorEq, if_false]
      obtain ⟨h8, h9, h10, h11⟩ := h.private_facts hB hr h1
      refine ⟨h.write hr h9 h10 h11, rfl, fun ho => ?_, ?_⟩
      · rw [h8] at ho; cases ho
      · rw [h3]
        simp only
        constructor <;> intro h12 <;> omega
    · rw [h3] at hlast; cases hlast
    · have hs : isSynchronized c = true := isSynchronized_iff.2 h5
      have hd : dropAccess c = some .atomic := by simp [dropAccess, hs, h6]
      refine ⟨_, rfl, ?_⟩
      rw [hd]
      simp only [if_true]
      refine ⟨(h.read hr (by simp)).release t b, rfl, fun _ _ => ?_, ?_⟩
      · intro i hi
        simp only [State.release, Function.update_self]
        exact Or.inr hi
      · rw [h3]
        obtain ⟨_, _, hb1, hb2⟩ := h.inv.counted b B hlive h4
        have := h.inv.count_neg hlive h4 h1
        simp only
        constructor <;> intro h12 <;> omega
  obtain ⟨s1, hs1, h1, hcore, hview, hsc⟩ := key
  unfold State.finishDrop
  simp only
  rw [hs1]
  have hheap : s1.heap = s.heap := congrArg Core.heap hcore
  have hheld1 : s1.held = s.held := congrArg Core.held hcore
  have htasks : s1.tasks = s.tasks := congrArg Core.tasks hcore
  refine h1.recount (by rw [hheap]; exact hB) ?_ ?_ ?_ ?_ ?_ ?_ ?_
  · rw [hheap, hheld1, htasks]; exact hinv
  · intro t' x hx; exact .held (Multiset.mem_of_mem_erase hx)
  · intro x t' i hx hi ho hc
    by_cases he : (t', x) = (t, b)
    · cases he
      right
      exact hview ho (hc B (by rw [hheap]; exact hB)) hi
    · exact Or.inl ((Multiset.mem_erase_of_ne he).2 hx)
  · exact hsc.1
  · exact fun h2 h3 => h2 (hsc.2 h3)
  · rw [htasks]; exact fun x hx => htl _ hx
  · rw [htasks]; exact fun x j g hx => htl _ hx

/-- What covers a block with one reference is known to the thread that holds it. -/
theorem Covered.unique {s : State T} {owner : Addr → Option T} {t : T} {b : Addr} (h1 : s.core.refs b = 1)
    (hh : (t, b) ∈ s.held) (hv : s.view b ⊆ s.know t) {i : Nat} (h : Covered s owner i b) : i ∈ s.know t := by
  obtain ⟨hu, hn⟩ := Core.unique_ref (s := s.core) h1 hh
  cases h with
  | view h => exact hv h
  | held h h' => rw [← hu _ h]; exact h'
  | owned ha hm _ _ => exact absurd hm (hn _ _ ha)
  | field ha hm _ _ => exact absurd hm (hn _ _ ha)

/-- A thread with the only reference to a block knows all that happened to it, after an acquire fence if it is shared. -/
theorem Ok.unique_events {s : State T} {owner : Addr → Option T} (h : Ok s owner) {t : T} {b : Addr} {B : Block}
    (hB : s.core.Live b B) (hst : B.count ≠ staticCount) (h1 : s.core.refs b = 1)
    (hh : (t, b) ∈ s.held) (hv : owner b = none → s.view b ⊆ s.know t) : s.events b ⊆ s.know t := by
  cases ho : owner b with
  | some t' =>
    have := h.inv.ownerHeld b t' t ho hh
    subst this
    exact h.know.owned b t ho
  | none =>
    intro i hi
    exact (h.know.shared b B hB ho hst i hi).unique h1 hh (hv ho)

theorem Ok.finishLastDrop {s : State T} {owner : Addr → Option T} (h : Ok s owner) {t : T} {b : Addr} {c : Int} {B : Block}
    {ks : List Task} (ht : s.tasks t = .dropLoaded b c :: ks) (hB : s.heap[b]? = some B)
    (hlast : (dropAction c B.count).2 = true) : ∃ owner', Ok (s.finishLastDrop t b c ks B) owner' := by
  have e : s.core.tasks t = .dropLoaded b c :: ks := ht
  have hst := staticCount_eq
  obtain ⟨hheld, hlive, hcases⟩ := h.inv.drop_cases e hB
  have hr : s.core.Reach t b := .held hheld
  obtain ⟨hinv, _, h1, _⟩ := h.inv.lastDrop e hB hlast
  -- the accesses
  have key : ∃ s1 : State T, ((if dropAccess c = some .atomic then ((s.accessCount t b (dropAccess c)).release t b).learn t
        ((s.accessCount t b (dropAccess c)).view b) else s.accessCount t b (dropAccess c)).access t b .content .read) = s1 ∧
      Ok s1 owner ∧ s1.core = s.core ∧ (owner b = none → s1.view b ⊆ s1.know t) ∧ s1.events b ⊆ s1.know t := by
    refine ⟨_, rfl, ?_⟩
    rcases hcases with ⟨_, _, h3⟩ | ⟨h4, h2, _, h3⟩ | ⟨_, _, _, h3⟩ | ⟨h4, h5, h6, h7, h8, h3⟩ | ⟨_, _, _, _, _, h3⟩
    · rw [h3] at hlast; cases hlast
    · have hcp := h.inv.count_pos hlive h4
      have hc : c = 0 := by omega
      have hd : dropAccess c = none := by rw [hc]; rfl
      rw [hd]
      simp only [reduceCtorEq, if_false]
      obtain ⟨h8, h9, h10, h11⟩ := h.private_facts hB hr h4
      refine ⟨h.read hr (by simp), rfl, ?_, events_known h9⟩
      intro ho
      rw [h8] at ho; cases ho
    · rw [h3] at hlast; cases hlast
    · have hs : isSynchronized c = true := isSynchronized_iff.2 h6
      have hd : dropAccess c = some .atomic := by simp [dropAccess, hs, h7]
      rw [hd]
      simp only [if_true]
      have hk : Ok (((s.accessCount t b (some .atomic)).release t b).learn t ((s.accessCount t b (some .atomic)).view b)) owner :=
        ((h.read hr (l := .count) (k := .atomic) (by simp)).release t b).learn t _
      have hv : (((s.accessCount t b (some .atomic)).release t b).learn t ((s.accessCount t b (some .atomic)).view b)).view b ⊆
          (((s.accessCount t b (some .atomic)).release t b).learn t ((s.accessCount t b (some .atomic)).view b)).know t := by
        intro i hi
        simp only [State.release, State.learn, Function.update_self] at hi ⊢
        exact hi.symm
      have hev := hk.unique_events hlive h5 h1 hheld (fun _ => hv)
      refine ⟨hk.read hr (by simp), rfl, fun _ => ?_, events_known hev⟩
      exact hv.trans know_access
    · rw [h3] at hlast; cases hlast
  obtain ⟨s1, hs1, hk, hcore, hview, hev⟩ := key
  unfold State.finishLastDrop
  simp only
  rw [hs1]
  have hheap : s1.heap = s.heap := congrArg Core.heap hcore
  have hheld1 : s1.held = s.held := congrArg Core.held hcore
  have htasks : s1.tasks = s.tasks := congrArg Core.tasks hcore
  rw [← hcore] at hr h1 hlive
  rw [← hheap] at hB
  have hheld : (t, b) ∈ s1.held := by rw [hheld1]; exact hheld
  rw [← htasks] at ht
  have e1 : s.core.heap = s1.heap := hheap.symm
  have e2 : s.core.held = s1.held := hheld1.symm
  have e3 : s.core.tasks = s1.tasks := htasks.symm
  rw [e1, e2, e3] at hinv
  clear hs1 h hcases e e1 e2 e3
  refine ⟨Function.update owner b none, ?_⟩
  have hget : ∀ x, (s1.heap.set b (Block.mk (dropAction c B.count).1 [] .dying))[x]? =
      if x = b then some (Block.mk (dropAction c B.count).1 [] .dying) else s1.heap[x]? := heap_set hB _
  have htl : ∀ k ∈ ks, k ∈ s1.tasks t := fun k hk => by rw [ht]; exact List.mem_cons_of_mem _ hk
  have hown : ∀ x t', Function.update owner b none x = some t' → x ≠ b ∧ owner x = some t' := by
    intro x t' hx
    by_cases he : x = b
    · subst he; rw [Function.update_self] at hx; cases hx
    · rw [Function.update_of_ne he] at hx; exact ⟨he, hx⟩
  have htk : ∀ t' k, k ∈ Function.update s1.tasks t (B.fields.reduceOption.map Task.drop ++ Task.free b :: ks) t' →
      k ∈ s1.tasks t' ∨ (t' = t ∧ ((∃ f, k = .drop f) ∨ k = .free b)) := by
    intro t' k hk
    by_cases htt : t' = t
    · subst htt
      rw [Function.update_self] at hk
      rcases List.mem_append.1 hk with hk | hk
      · obtain ⟨f, _, rfl⟩ := List.mem_map.1 hk
        exact Or.inr ⟨rfl, Or.inl ⟨f, rfl⟩⟩
      · rcases List.mem_cons.1 hk with hk | hk
        · exact Or.inr ⟨rfl, Or.inr hk⟩
        · exact Or.inl (htl k hk)
    · rw [Function.update_of_ne htt] at hk; exact Or.inl hk
  refine hk.change rfl (fun _ => rfl) rfl rfl (by simp [State.setTasks]) hinv ?_ ?_ ?_ ?_ ?_ ?_ ?_
  · refine hk.acyclic.sub fun a x A' ha hx => ?_
    have ha : (s1.heap.set b (Block.mk (dropAction c B.count).1 [] .dying))[a]? = some A' := ha
    rw [hget] at ha
    split at ha
    · cases ha; cases hx
    · exact ⟨A', ha, hx⟩
  · intro x t' hx; exact Or.inl (hown x t' hx).2
  · intro t' x hx
    left
    refine hx.sub (s := s1.core) (fun y hy => ?_) (fun a A' y ha hA' hy => ?_)
    · rcases Multiset.mem_add.1 hy with hy | hy
      · exact .held (Multiset.mem_of_mem_erase hy)
      · obtain ⟨e1, e2⟩ := mem_references.1 hy
        simp only at e1 e2
        subst e1
        exact .field hr hB e2
    · have hA' : (s1.heap.set b (Block.mk (dropAction c B.count).1 [] .dying))[a]? = some A' := hA'
      rw [hget] at hA'
      split at hA'
      · cases hA'; cases hy
      · exact .field ha hA' hy
  · intro x X hX ho hc i hi
    have hX1 : (s1.heap.set b (Block.mk (dropAction c B.count).1 [] .dying))[x]? = some X := hX.1
    rw [hget] at hX1
    have hxb : x ≠ b := by
      rintro rfl
      rw [if_pos rfl] at hX1; cases hX1
      exact absurd hX.2 (by simp)
    rw [if_neg hxb] at hX1
    rw [Function.update_of_ne hxb] at ho
    have hrefs : ∀ y t', some y ∈ B.fields → t' = t → (t', y) ∈ s1.held.erase (t, b) + references t B.fields := by
      intro y t' hy e1
      exact Multiset.mem_add.2 (Or.inr (mem_references.2 ⟨e1, hy⟩))
    refine Covered.transfer (P := fun x => x ≠ b) (s := s1) (owner := owner) ?_ ?_ ?_ ?_
      (hk.know.shared x X ⟨hX1, hX.2⟩ ho hc i hi) hxb
    · intro y _ hv; exact .view hv
    · intro y t' hy h2 h3
      refine .held (Multiset.mem_add.2 (Or.inl ((Multiset.mem_erase_of_ne ?_).2 h2))) h3
      intro e2; cases e2; exact hy rfl
    · intro a A y t' hy h2 h3 h4 h5
      by_cases hab : a = b
      · subst hab
        rw [hB] at h2; cases h2
        have := hk.inv.ownerHeld a t' t h4 hheld
        subst this
        exact .held (hrefs y t h3 rfl) h5
      · refine .owned (a := a) (A := A) ?_ h3 ?_ h5
        · exact (hget a).trans (by rw [if_neg hab]; exact h2)
        · rw [Function.update_of_ne hab]; exact h4
    · intro a A y hy h2 h3 h4 h5 ih
      by_cases hab : a = b
      · subst hab
        rw [hB] at h2; cases h2
        exact .held (hrefs y t h3 rfl) (h5.unique h1 hheld (hview h4))
      · refine .field (a := a) (A := A) ?_ h3 ?_ (ih hab)
        · exact (hget a).trans (by rw [if_neg hab]; exact h2)
        · rw [Function.update_of_ne hab]; exact h4
  · intro t' x hx
    rcases htk t' _ hx with hx' | ⟨rfl, ⟨f, hx'⟩ | hx'⟩
    · exact Or.inl hx'
    · cases hx'
    · cases hx'; exact Or.inr hev
  · intro t' x j g hx
    rcases htk t' _ hx with hx' | ⟨rfl, ⟨f, hx'⟩ | hx'⟩
    · exact Or.inl hx'
    · cases hx'
    · cases hx'
  · intro x X hX hc
    have hX1 : (s1.heap.set b (Block.mk (dropAction c B.count).1 [] .dying))[x]? = some X := hX
    rw [hget] at hX1
    split at hX1
    · rename_i he
      subst he
      have hX2 := hX1
      cases hX2
      exact absurd hc (hinv.dead x _ ((hget x).trans (by rw [if_pos rfl])) (by simp)).2
    · exact ⟨X, hX1, hc⟩

theorem Ok.finishFree {s : State T} {owner : Addr → Option T} (h : Ok s owner) {t : T} {b : Addr} {B : Block}
    {ks : List Task} (ht : s.tasks t = .free b :: ks) (hB : s.heap[b]? = some B) : Ok (s.finishFree t b ks B) owner := by
  have e : s.core.tasks t = .free b :: ks := ht
  have hmem : Task.free b ∈ s.tasks t := by rw [ht]; exact List.mem_cons_self
  have htl : ∀ k ∈ ks, k ∈ s.tasks t := fun k hk => by rw [ht]; exact List.mem_cons_of_mem _ hk
  obtain ⟨hinv, hd⟩ := h.inv.free e hB
  obtain ⟨hf, hcs⟩ := h.inv.dead b B hB (by rw [hd]; simp)
  have hnl : ∀ X, ¬ s.core.Live b X := by
    intro X hX
    have h1 : s.heap[b]? = some X := hX.1
    rw [hB] at h1; cases h1
    have := hX.2
    rw [hd] at this; cases this
  have hacc : ∀ {s1 : State T} {l : Location}, Ok s1 owner → s1.core = s.core → s1.events b ⊆ s1.know t →
      Ok (s1.accessAs .dying t b l .write) owner := by
    intro s1 l h1 hcore hev
    have hheap : s1.heap = s.heap := congrArg Core.heap hcore
    have htasks : s1.tasks = s.tasks := congrArg Core.tasks hcore
    refine h1.accessAs (by rw [hheap]; exact hB) hd ?_ (fun _ => hev) ?_ ?_ ?_ ?_ ?_ (fun _ => hcs)
    · rintro i ⟨l, hi⟩
      exact hev ⟨l, _, hi⟩
    · intro t' ho
      obtain ⟨X, hX⟩ := h.inv.ownerLive b t' ho
      exact absurd hX (hnl X)
    · intro _ t' hr
      rw [hcore] at hr
      obtain ⟨X, hX⟩ := h.inv.reach_live hr
      exact absurd hX (hnl X)
    · intro hs; rw [hd] at hs; cases hs
    · intro t' hf
      rw [htasks] at hf
      exact h.inv.freesOnce t' t b hf hmem
    · intro t' j g hf
      rw [htasks] at hf
      have hh : (t', b) ∈ s.core.held := mem_of_needs h.inv (k := .store b j g) hf (by simp [Task.needs])
      obtain ⟨X, hX⟩ := h.inv.target b (Core.refs_held hh)
      exact absurd hX (hnl X)
  have h1 := hacc (l := .content) (hacc (l := .count) h rfl (h.know.freeing t b hmem)) rfl
    (events_known (h.know.freeing t b hmem))
  unfold State.finishFree
  simp only
  have hget : ∀ x, (s.heap.set b { B with status := .freed })[x]? = if x = b then some { B with status := .freed } else s.heap[x]? :=
    heap_set hB _
  have hfl : ∀ (a : Addr) (A' : Block), (s.heap.set b { B with status := .freed })[a]? = some A' →
      ∃ A : Block, s.heap[a]? = some A ∧ A'.fields = A.fields ∧ A'.count = A.count := by
    intro a A' ha
    rw [hget] at ha
    split at ha
    · rename_i he
      subst he
      cases ha
      exact ⟨B, hB, rfl, rfl⟩
    · exact ⟨A', ha, rfl, rfl⟩
  have hnp : ∀ (a : Addr) (A : Block) (y : Addr), s.heap[a]? = some A → some y ∈ A.fields → a ≠ b := by
    rintro a A y ha hy rfl
    rw [hB] at ha; cases ha
    rw [hf] at hy; cases hy
  have htk : ∀ t' k, k ∈ Function.update s.tasks t ks t' → k ∈ s.tasks t' := by
    intro t' k hk
    by_cases htt : t' = t
    · subst htt; rw [Function.update_self] at hk; exact htl k hk
    · rw [Function.update_of_ne htt] at hk; exact hk
  refine h1.change rfl (fun _ => rfl) rfl rfl (by simp [State.setTasks]) hinv ?_ (fun _ _ h => Or.inl h) ?_ ?_ ?_ ?_ ?_
  · refine h.acyclic.sub fun a x A' ha hx => ?_
    obtain ⟨A, hA, hf', _⟩ := hfl a A' ha
    exact ⟨A, hA, by rw [← hf']; exact hx⟩
  · intro t' x hx
    left
    refine hx.sub (s := s.core) ?_ ?_
    · intro y hy; exact .held hy
    intro a A' y ha hA' hy
    obtain ⟨A, hA, hf', _⟩ := hfl a A' hA'
    exact .field ha hA (by rw [← hf']; exact hy)
  · intro x X hX ho hc i hi
    have hX1 : (s.heap.set b { B with status := .freed })[x]? = some X := hX.1
    rw [hget] at hX1
    have hxb : x ≠ b := by
      rintro rfl
      rw [if_pos rfl] at hX1; cases hX1
      exact absurd hX.2 (by simp)
    rw [if_neg hxb] at hX1
    refine Covered.transfer (P := fun _ => True) (owner := owner) ?_ ?_ ?_ ?_
      (h1.know.shared x X ⟨hX1, hX.2⟩ ho hc i hi) trivial
    · intro y _ hv; exact .view hv
    · intro y t' _ h2 h3; exact .held h2 h3
    · intro a A y t' _ h2 h3 h4 h5
      refine .owned (a := a) (A := A) ?_ h3 h4 h5
      exact (hget a).trans (by rw [if_neg (hnp a A y h2 h3)]; exact h2)
    · intro a A y _ h2 h3 h4 h5 ih
      refine .field (a := a) (A := A) ?_ h3 h4 (ih trivial)
      exact (hget a).trans (by rw [if_neg (hnp a A y h2 h3)]; exact h2)
  · intro t' x hx; exact Or.inl (htk t' _ hx)
  · intro t' x j g hx; exact Or.inl (htk t' _ hx)
  · intro x X hX hc
    obtain ⟨A, hA, _, hc'⟩ := hfl x X hX
    exact ⟨A, hA, by rw [← hc']; exact hc⟩

end Verif.Runtime.Graph
