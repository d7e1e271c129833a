import Verif.Runtime.GraphInv

/-
Steps that change a count: `clone`, `drop` of a reference that is not the last one, `synchronize`.
-/
namespace Verif.Runtime.Graph

open Verif.Runtime.Arc (isSynchronized staticCount uniqueCount synchronizedUniqueCount cloneAction dropAction
  synchronizeAction isUnique)

variable {T : Type} [DecidableEq T]

/-- A block `b` of a thread that can reach it gets the count `n`, and the references of that thread change. -/
theorem Inv.recount {s : Core T} {owner : Addr → Option T} (h : Inv s owner) {t : T} {b : Addr} {B : Block} {n : Int}
    {held' : Multiset (T × Addr)} {ks : List Task} {s' : Core T}
    (hs' : s' = ⟨s.heap.set b { B with count := n }, held', Function.update s.tasks t ks⟩)
    (hB : s.Live b B) (hr : s.Reach t b)
    (hrefs : ∀ x, x ≠ b → heldRefs held' x = heldRefs s.held x)
    (hcount : (n = staticCount ∧ B.count = staticCount) ∨ (B.count ≠ staticCount ∧ 0 < s'.refs b ∧
      (n = s'.refs b - 1 ∨ n = -s'.refs b) ∧ staticCount < n ∧ n < 2 ^ 63 - 1))
    (hsign : 0 ≤ n → 0 ≤ B.count) (hneg : B.count < 0 → n < 0)
    (hheld : ∀ t' x, (t', x) ∈ held' → (t', x) ∈ s.held ∨ (t' = t ∧ s.Reach t x))
    (hother : ∀ t' x, t' ≠ t → (t', x) ∈ s.held → (t', x) ∈ held')
    (hneeds : ∀ t', t' ≠ t → needsOf t' (s.tasks t') ≤ s.held → needsOf t' (s.tasks t') ≤ held')
    (hm : ∀ b B, s'.Live b B → owner b = some t → B.count < 0 →
      (∀ k ∈ ks, k.isSync) ∧ ∀ f, some f ∈ B.fields → s'.Marked f ∨ pending f ks)
    (hk : ∀ k ∈ ks, TaskOk s' owner t k) (hn : needsOf t ks ≤ held') (hsh : Shape ks)
    (hl : ∀ k ∈ ks.tail, ¬ k.isLoaded) (hf : ∀ b, ks.count (.free b) = (s.tasks t).count (.free b)) :
    Inv s' owner := by
  have hget : ∀ x, s'.heap[x]? = if x = b then some { B with count := n } else s.heap[x]? := by
    intro x; rw [hs']; exact heap_set hB.1 _ x
  have htasks : ∀ t', t' ≠ t → s'.tasks t' = s.tasks t' := by
    intro t' ht; rw [hs']; exact Function.update_of_ne ht _ _
  have htaskt : s'.tasks t = ks := by rw [hs']; exact Function.update_self _ _ _
  have hh : s'.held = held' := by rw [hs']
  have hfr : ∀ x, fieldRefs s'.heap x = fieldRefs s.heap x := by
    intro x
    have := fieldRefs_set hB.1 { B with count := n } x
    rw [hs']
    simp only at this ⊢
    omega
  have hrefs' : ∀ x, x ≠ b → s'.refs x = s.refs x := by
    intro x hx
    unfold Core.refs
    rw [hfr, hh, hrefs x hx]
  -- blocks of the new heap come from the old one
  have hold : ∀ (x : Addr) (X' : Block), s'.heap[x]? = some X' → ∃ X : Block, s.heap[x]? = some X ∧ X'.fields = X.fields ∧ X'.status = X.status ∧
      (X.count < 0 → X'.count < 0) ∧ (0 ≤ X'.count → 0 ≤ X.count) := by
    intro x X' hX
    rw [hget] at hX
    split at hX
    · rename_i he; subst he; cases hX
      exact ⟨B, hB.1, rfl, rfl, hneg, hsign⟩
    · exact ⟨X', hX, rfl, rfl, id, id⟩
  have hnew : ∀ (x : Addr) (X : Block), s.heap[x]? = some X → ∃ X' : Block, s'.heap[x]? = some X' ∧ X'.fields = X.fields ∧ X'.status = X.status ∧
      (X.count < 0 → X'.count < 0) := by
    intro x X hX
    by_cases he : x = b
    · subst he
      rw [hB.1] at hX; cases hX
      exact ⟨{ B with count := n }, by rw [hget, if_pos rfl], rfl, rfl, hneg⟩
    · exact ⟨X, by rw [hget, if_neg he]; exact hX, rfl, rfl, id⟩
  have hmark : ∀ f, s.Marked f → s'.Marked f := by
    rintro f ⟨F, hF, hc⟩
    obtain ⟨F', hF', _, _, hc'⟩ := hnew f F hF
    exact ⟨F', hF', hc' hc⟩
  have hframe : ∀ t', t' ≠ t → Frame s s' owner owner t' := by
    intro t' ht
    refine ⟨htasks t' ht, ?_, ?_, ?_, ?_, fun _ _ _ _ h => h, ?_⟩
    · intro x hx
      refine hx.mono (fun y hy => ?_) (fun a A _ ha => ?_)
      · rw [hh]; exact hother t' y ht hy
      · obtain ⟨A', hA', hf', _⟩ := hnew a A ha
        exact ⟨A', hA', by rw [hf']; exact fun _ h => h⟩
    · intro x c hx hlo X hX
      rw [hget] at hX
      split at hX
      · rename_i he
        subst he; cases hX
        -- the block is shared, since both threads reach it
        have hneg' : B.count < 0 := by
          by_contra hc
          obtain ⟨t0, ht0⟩ := h.owned x B hB (by omega)
          exact ht ((h.owner_reach hx ht0).trans (h.owner_reach hr ht0).symm)
        have := (hlo B hB.1).2 hneg'
        refine ⟨fun h0 => by have := hneg hneg'; simp only at h0; omega, fun _ => ⟨this.1, this.2.trans ?_⟩⟩
        rcases hcount with ⟨h1, h2⟩ | ⟨h1, _, _, h2, _⟩
        · simp [h1, h2]
        · constructor
          · intro h3; exact absurd h3 h1
          · intro h3; simp only at h3; omega
      · exact hlo X hX
    · intro x X hX hd _
      obtain ⟨X', hX', _, hs, _⟩ := hnew x X hX
      exact ⟨X', hX', by rw [hs]; exact hd⟩
    · intro x h1 hx
      have hne : x ≠ b := by
        rintro rfl
        exact ht (Core.unique_reach h1 hx hr).symm
      refine ⟨by rw [hrefs' x hne]; exact h1, fun X hX => ?_⟩
      obtain ⟨X', hX', hf', _⟩ := hnew x X hX
      exact ⟨X', hX', hf'⟩
    · intro hle; rw [hh]; exact hneeds t' ht hle
  have hlive : ∀ x X', s'.Live x X' → ∃ X, s.Live x X ∧ X'.fields = X.fields ∧ (X.count < 0 → X'.count < 0) ∧
      (0 ≤ X'.count → 0 ≤ X.count) := by
    intro x X' ⟨hX, hs⟩
    obtain ⟨X, hX0, hf, hs', h1, h2⟩ := hold x X' hX
    exact ⟨X, ⟨hX0, by rw [← hs']; exact hs⟩, hf, h1, h2⟩
  have hfree : ∀ t' x, Task.free x ∈ s'.tasks t' ↔ Task.free x ∈ s.tasks t' := by
    intro t' x
    by_cases ht : t' = t
    · subst ht; rw [htaskt, ← List.count_pos_iff, hf, List.count_pos_iff]
    · rw [htasks t' ht]
  exact {
    target := by
      intro x hx
      by_cases he : x = b
      · subst he; exact ⟨{ B with count := n }, by rw [hget, if_pos rfl], hB.2⟩
      · rw [hrefs' x he] at hx
        obtain ⟨X, hX, hs⟩ := h.target x hx
        exact ⟨X, by rw [hget, if_neg he]; exact hX, hs⟩
    counted := by
      intro x X hX hc
      by_cases he : x = b
      · subst he
        have := hX.1
        rw [hget, if_pos rfl] at this; cases this
        simp only at hc ⊢
        rcases hcount with ⟨h1, _⟩ | ⟨_, h2⟩
        · exact absurd h1 hc
        · exact h2
      · have := hX.1
        rw [hget, if_neg he] at this
        rw [hrefs' x he]
        exact h.counted x X ⟨this, hX.2⟩ hc
    owned := by
      intro x X' hX hc
      obtain ⟨X, hX0, _, _, h2⟩ := hlive x X' hX
      exact h.owned x X hX0 (h2 hc)
    ownerLive := by
      intro x t' hx
      obtain ⟨X, hX, hs⟩ := h.ownerLive x t' hx
      obtain ⟨X', hX', _, hs', _⟩ := hnew x X hX
      exact ⟨X', hX', by rw [hs']; exact hs⟩
    ownerHeld := by
      intro x t1 t2 ho hx
      rw [hh] at hx
      rcases hheld t2 x hx with h1 | ⟨rfl, h1⟩
      · exact h.ownerHeld x t1 t2 ho h1
      · exact h.owner_reach h1 ho
    ownerField := by
      intro x t' a A' ho ha hx
      obtain ⟨A, hA, hf', _⟩ := hold a A' ha
      exact h.ownerField x t' a A ho hA (by rw [← hf']; exact hx)
    statics := by
      intro x X' hX hc
      by_cases he : x = b
      · subst he
        have := hX.1
        rw [hget, if_pos rfl] at this; cases this
        simp only at hc ⊢
        rcases hcount with ⟨_, h2⟩ | ⟨_, _, _, h2, _⟩
        · exact h.statics x B hB h2
        · omega
      · have := hX.1
        rw [hget, if_neg he] at this
        exact h.statics x X' ⟨this, hX.2⟩ hc
    dead := by
      intro x X' hX hs
      have he : x ≠ b := by
        rintro rfl
        rw [hget, if_pos rfl] at hX
        cases hX
        exact hs hB.2
      rw [hget, if_neg he] at hX
      exact h.dead x X' hX hs
    marked := by
      intro x X' t' hX ho hc
      by_cases ht : t' = t
      · subst ht; rw [htaskt]; exact hm x X' hX ho hc
      · rw [htasks t' ht]
        -- its own blocks are not touched
        have he : x ≠ b := by rintro rfl; exact ht (h.owner_reach hr ho).symm
        have := hX.1
        rw [hget, if_neg he] at this
        obtain ⟨h1, h2⟩ := h.marked x X' t' ⟨this, hX.2⟩ ho hc
        exact ⟨h1, fun f hf' => (h2 f hf').imp (hmark f) id⟩
    taskOk := by
      intro t' k hk'
      by_cases ht : t' = t
      · subst ht; rw [htaskt] at hk'; exact hk k hk'
      · exact (hframe t' ht).taskOk h hk'
    needs := by
      intro t'
      by_cases ht : t' = t
      · subst ht; rw [htaskt, hh]; exact hn
      · exact (hframe t' ht).needsLe h
    shape := by
      intro t'
      by_cases ht : t' = t
      · subst ht; rw [htaskt]; exact hsh
      · rw [htasks t' ht]; exact h.shape t'
    loadedHead := by
      intro t'
      by_cases ht : t' = t
      · subst ht; rw [htaskt]; exact hl
      · rw [htasks t' ht]; exact h.loadedHead t'
    frees := by
      intro t' x
      by_cases ht : t' = t
      · subst ht; rw [htaskt, hf]; exact h.frees t' x
      · rw [htasks t' ht]; exact h.frees t' x
    freesOnce := fun t1 t2 x h1 h2 => h.freesOnce t1 t2 x ((hfree t1 x).1 h1) ((hfree t2 x).1 h2)
    dying := by
      intro x X' hX hd
      obtain ⟨X, hX0, _, hs', _⟩ := hold x X' hX
      obtain ⟨t', ht'⟩ := h.dying x X hX0 (by rw [← hs']; exact hd)
      exact ⟨t', (hfree t' x).2 ht'⟩ }

/-- The references to `b` after its count and the references of threads have changed. -/
theorem refs_recount {s : Core T} {b : Addr} {B : Block} {n : Int} {held' : Multiset (T × Addr)} {tasks' : T → List Task}
    (hB : s.heap[b]? = some B) (x : Addr) :
    (Core.mk (s.heap.set b { B with count := n }) held' tasks').refs x = heldRefs held' x + fieldRefs s.heap x := by
  unfold Core.refs
  have := fieldRefs_set hB { B with count := n } x
  simp only at this ⊢
  omega

theorem staticCount_eq : staticCount = -9223372036854775808 := by decide

theorem isSynchronized_iff {c : Int} : isSynchronized c = true ↔ c < 0 := by simp [isSynchronized]

theorem isSynchronized_false {c : Int} : isSynchronized c = false ↔ 0 ≤ c := by simp [isSynchronized]

theorem Inv.count_pos {s : Core T} {owner : Addr → Option T} (h : Inv s owner) {b : Addr} {B : Block} (hB : s.Live b B)
    (hc : 0 ≤ B.count) : B.count = s.refs b - 1 := by
  obtain ⟨h1, h2, _⟩ := h.counted b B hB (by rw [staticCount_eq]; omega)
  omega

theorem Inv.count_neg {s : Core T} {owner : Addr → Option T} (h : Inv s owner) {b : Addr} {B : Block} (hB : s.Live b B)
    (hs : B.count ≠ staticCount) (hc : B.count < 0) : B.count = -s.refs b := by
  obtain ⟨h1, h2, _⟩ := h.counted b B hB hs
  omega

/-- The list of tasks of a thread whose first task is to clone. -/
theorem shape_clone {ks : List Task} {b : Addr} {c : Int} (h : Shape (.cloneLoaded b c :: ks)) : ks = [] := by
  rcases h with ⟨_, h⟩ | ⟨_, _, h⟩ | h | h
  · cases h
  · cases h; rfl
  · exact absurd (h _ (List.mem_cons_self)) (by simp [Task.isSync])
  · exact absurd (h _ (List.mem_cons_self)) (by simp [Task.consumes])

theorem shape_sync {ks : List Task} {k : Task} (h : Shape (k :: ks)) (hk : k.isSync) : ∀ k ∈ ks, k.isSync := by
  rcases h with ⟨_, h⟩ | ⟨_, _, h⟩ | h | h
  · cases h; simp
  · cases h; simp
  · exact fun k hk => h k (List.mem_cons_of_mem _ hk)
  · have := h _ (List.mem_cons_self)
    cases k <;> simp_all [Task.isSync, Task.consumes]

theorem shape_consumes {ks : List Task} {k : Task} (h : Shape (k :: ks)) (hk : k.consumes) : ∀ k ∈ ks, k.consumes := by
  rcases h with ⟨_, h⟩ | ⟨_, _, h⟩ | h | h
  · cases h; simp
  · cases h; simp
  · have := h _ (List.mem_cons_self)
    cases k <;> simp_all [Task.isSync, Task.consumes]
  · exact fun k hk => h k (List.mem_cons_of_mem _ hk)

/-- A thread with another task has nothing of its own that is synchronized. -/
theorem Inv.private_pos {s : Core T} {owner : Addr → Option T} (h : Inv s owner) {t : T} {k : Task} (hk : k ∈ s.tasks t)
    (hs : ¬ k.isSync) {b : Addr} {B : Block} (hB : s.Live b B) (ho : owner b = some t) : 0 ≤ B.count := by
  by_contra hc
  exact hs ((h.marked b B t hB ho (by omega)).1 k hk)

/-- `clone` -/
theorem Inv.clone {s : Core T} {owner : Addr → Option T} (h : Inv s owner) {t : T} {b : Addr} {c : Int} {B : Block}
    {ks : List Task} (ht : s.tasks t = .cloneLoaded b c :: ks) (hB : s.heap[b]? = some B)
    (hfit : Fits B (cloneAction c B.count)) :
    Inv ⟨s.heap.set b { B with count := cloneAction c B.count }, (t, b) ::ₘ s.held, Function.update s.tasks t ks⟩
      owner := by
  have hmem : Task.cloneLoaded b c ∈ s.tasks t := by rw [ht]; exact List.mem_cons_self
  have hok := h.taskOk t _ hmem
  have hks : ks = [] := shape_clone (ht ▸ h.shape t)
  subst hks
  obtain ⟨B0, hB0⟩ := h.reach_live hok.1
  have hlive : s.Live b B := by
    have := hB0.1
    rw [hB] at this; cases this; exact hB0
  have hlo := hok.2 B hB
  have hrefs0 := hok.1.refs
  have hR : heldRefs ((t, b) ::ₘ s.held) b + fieldRefs s.heap b = s.refs b + 1 := by
    rw [heldRefs_cons]; simp only [if_true, Core.refs]; omega
  have hst := staticCount_eq
  -- the new count
  have hcases : (B.count = staticCount ∧ cloneAction c B.count = staticCount) ∨
      (B.count ≠ staticCount ∧ (cloneAction c B.count = s.refs b ∧ 0 ≤ B.count ∨
        cloneAction c B.count = -(s.refs b + 1) ∧ B.count < 0)) := by
    by_cases h0 : 0 ≤ B.count
    · right
      have hc := hlo.1 h0
      have := h.count_pos hlive h0
      refine ⟨by omega, Or.inl ⟨?_, h0⟩⟩
      have hns : isSynchronized c = false := by rw [isSynchronized_false, hc]; exact h0
      simp only [cloneAction, hns, Bool.not_false, if_true]
      omega
    · have hneg : B.count < 0 := by omega
      have hc := hlo.2 hneg
      have hns : isSynchronized c = true := isSynchronized_iff.2 hc.1
      by_cases hs : B.count = staticCount
      · left
        refine ⟨hs, ?_⟩
        have hcs := hc.2.2 hs
        subst hcs
        simp only [cloneAction, hns, Bool.not_true, Bool.false_eq_true, if_false, ne_eq, not_true_eq_false]
        exact hs
      · right
        have := h.count_neg hlive hs hneg
        refine ⟨hs, Or.inr ⟨?_, hneg⟩⟩
        have : c ≠ staticCount := fun e => hs (hc.2.1 e)
        simp only [cloneAction, hns, Bool.not_true, Bool.false_eq_true, if_false, ne_eq, this, not_false_eq_true, if_true]
        omega
  apply h.recount rfl hlive hok.1
  · intro x hx
    rw [heldRefs_cons, if_neg (Ne.symm hx)]; rfl
  · rw [refs_recount hB, hR]
    rcases hcases with ⟨h1, h2⟩ | ⟨h1, h2⟩
    · left; exact ⟨h2, h1⟩
    · right
      refine ⟨h1, by omega, ?_, ?_⟩
      · rcases h2 with ⟨h2, _⟩ | ⟨h2, _⟩
        · left; rw [h2]; push_cast; omega
        · right; rw [h2]; push_cast; rfl
      · rcases hfit with hf | hf
        · exact absurd hf h1
        · exact hf
  · intro h0
    rcases hcases with ⟨h1, h2⟩ | ⟨h1, ⟨h2, h3⟩ | ⟨h2, h3⟩⟩ <;> omega
  · intro h0
    rcases hcases with ⟨h1, h2⟩ | ⟨h1, ⟨h2, h3⟩ | ⟨h2, h3⟩⟩ <;> omega
  · intro t' x hx
    rcases Multiset.mem_cons.1 hx with hx | hx
    · cases hx; exact Or.inr ⟨rfl, hok.1⟩
    · exact Or.inl hx
  · intro t' x _ hx; exact Multiset.mem_cons_of_mem hx
  · intro t' _ hle; exact hle.trans (Multiset.le_cons_self _ _)
  · intro x X hX ho hc
    refine ⟨by simp, ?_⟩
    exfalso
    obtain ⟨X0, hX0⟩ := h.ownerLive x t ho
    have hp := h.private_pos hmem (by simp [Task.isSync]) hX0 ho
    have := hX.1
    rw [heap_set hB] at this
    split at this
    · rename_i he
      subst he
      cases this
      have hX1 := hX0.1
      rw [hB] at hX1; cases hX1
      simp only at hc
      rcases hcases with ⟨h1, h2⟩ | ⟨h1, ⟨h2, h3⟩ | ⟨h2, h3⟩⟩ <;> omega
    · have hX1 := hX0.1
      rw [this] at hX1; cases hX1; omega
  · simp
  · rw [needsOf_nil]; exact Multiset.zero_le _
  · exact Or.inr (Or.inr (Or.inl (by simp)))
  · simp
  · intro x; rw [ht]; simp

/-- The rest of the tasks after one that drops. -/
theorem Inv.restOk {s s' : Core T} {owner owner' : Addr → Option T} (h : Inv s owner) {t : T} {k : Task} {ks : List Task}
    (ht : s.tasks t = k :: ks) (hk : k.consumes)
    (hfree : ∀ (x : Addr) (X : Block), Task.free x ∈ ks → s.heap[x]? = some X → X.status = .dying →
      ∃ X' : Block, s'.heap[x]? = some X' ∧ X'.status = .dying)
    (hstore : ∀ (x g : Addr) (X : Block), x ∉ k.needs → (t, x) ∈ s.held → (t, g) ∈ s.held → s.refs x = 1 → s.heap[x]? = some X →
      s'.refs x = 1 ∧ (∃ X' : Block, s'.heap[x]? = some X' ∧ X'.fields = X.fields) ∧
      ((owner x = none → owner g = none) → owner' x = none → owner' g = none)) :
    ∀ k' ∈ ks, TaskOk s' owner' t k' := by
  intro k' hk'
  have hmem : k' ∈ s.tasks t := by rw [ht]; exact List.mem_cons_of_mem _ hk'
  have hc := shape_consumes (ht ▸ h.shape t) hk k' hk'
  have hl : ¬ k'.isLoaded := h.loadedHead t k' (by rw [ht]; exact hk')
  have hok := h.taskOk t k' hmem
  cases k' with
  | free x =>
    obtain ⟨X, hX, hd⟩ := hok
    exact hfree x X hk' hX hd
  | drop x => trivial
  | update x i g => trivial
  | dropLoaded x c => exact absurd trivial hl
  | store x i g =>
    obtain ⟨h1, ⟨X, hX, hi⟩, ho⟩ := hok
    have hx : (t, x) ∈ s.held := mem_of_needs h hmem (by simp [Task.needs])
    have hg : (t, g) ∈ s.held := mem_of_needs h hmem (by simp [Task.needs])
    have hne : x ∉ k.needs := by
      intro hb
      have hle : ({(t, x)} + {(t, x)} : Multiset (T × Addr)) ≤ s.held := by
        refine le_trans ?_ (h.needs t)
        rw [ht, needsOf_cons]
        refine (Multiset.add_le_add_right ?_).trans (Multiset.add_le_add_left ?_)
        · rw [Multiset.singleton_le, Multiset.mem_coe, List.mem_map]
          exact ⟨x, hb, rfl⟩
        · rw [Multiset.singleton_le]
          simp only [needsOf, Multiset.mem_coe, List.mem_map, List.mem_flatMap, Prod.mk.injEq]
          exact ⟨x, ⟨_, hk', by simp [Task.needs]⟩, trivial, rfl⟩
      have := heldRefs_sub hle x
      have h2 : heldRefs ({(t, x)} + {(t, x)} : Multiset (T × Addr)) x = 2 := by
        rw [heldRefs_add]
        have : ({(t, x)} : Multiset (T × Addr)) = (t, x) ::ₘ 0 := rfl
        rw [this, heldRefs_cons]; simp [heldRefs]
      unfold Core.refs at h1
      omega
    obtain ⟨h1', ⟨X', hX', hf⟩, ho'⟩ := hstore x g X hne hx hg h1 hX
    exact ⟨h1', ⟨X', hX', by rw [hf]; exact hi⟩, ho' ho⟩
  | clone x => simp [Task.consumes] at hc
  | cloneLoaded x c => simp [Task.consumes] at hc
  | sync x => simp [Task.consumes] at hc
  | syncLoaded x c => simp [Task.consumes] at hc

/-- What is known about `drop` after its load. -/
theorem Inv.drop_cases {s : Core T} {owner : Addr → Option T} (h : Inv s owner) {t : T} {b : Addr} {c : Int} {B : Block}
    {ks : List Task} (ht : s.tasks t = .dropLoaded b c :: ks) (hB : s.heap[b]? = some B) :
    (t, b) ∈ s.held ∧ s.Live b B ∧
    ((B.count = staticCount ∧ c = staticCount ∧ dropAction c B.count = (staticCount, false)) ∨
     (0 ≤ B.count ∧ c = B.count ∧ s.refs b = 1 ∧ dropAction c B.count = (0, true)) ∨
     (0 ≤ B.count ∧ c = B.count ∧ 1 < s.refs b ∧ dropAction c B.count = ((s.refs b : Int) - 2, false)) ∨
     (B.count < 0 ∧ B.count ≠ staticCount ∧ c < 0 ∧ c ≠ staticCount ∧ s.refs b = 1 ∧ dropAction c B.count = (0, true)) ∨
     (B.count < 0 ∧ B.count ≠ staticCount ∧ c < 0 ∧ c ≠ staticCount ∧ 1 < s.refs b ∧
       dropAction c B.count = (1 - (s.refs b : Int), false))) := by
  have hmem : Task.dropLoaded b c ∈ s.tasks t := by rw [ht]; exact List.mem_cons_self
  have hheld : (t, b) ∈ s.held := mem_of_needs h hmem (by simp [Task.needs])
  have hr := Core.refs_held hheld
  obtain ⟨B0, hB0⟩ := h.target b hr
  have hlive : s.Live b B := by
    have := hB0.1
    rw [hB] at this; cases this; exact hB0
  have hlo : s.Loaded b c := h.taskOk t _ hmem
  have hlo := hlo B hB
  have hst := staticCount_eq
  refine ⟨hheld, hlive, ?_⟩
  by_cases h0 : 0 ≤ B.count
  · have hc := hlo.1 h0
    have hcp := h.count_pos hlive h0
    have hns : isSynchronized c = false := by rw [isSynchronized_false, hc]; exact h0
    by_cases h1 : s.refs b = 1
    · right; left
      have : c = 0 := by omega
      refine ⟨h0, hc, h1, ?_⟩
      have hB0 : B.count = 0 := by omega
      rw [hB0, this]; rfl
    · right; right; left
      refine ⟨h0, hc, by omega, ?_⟩
      have hcn : c ≠ uniqueCount := by simp only [uniqueCount]; omega
      simp only [dropAction, hns, Bool.false_eq_true, if_false, hcn]
      rw [hc, hcp]
      congr 1
      omega
  · have hneg : B.count < 0 := by omega
    have hc := hlo.2 hneg
    have hns : isSynchronized c = true := isSynchronized_iff.2 hc.1
    by_cases hs : B.count = staticCount
    · left
      have hcs := hc.2.2 hs
      refine ⟨hs, hcs, ?_⟩
      subst hcs
      rw [hs]; rfl
    · have hcs : c ≠ staticCount := fun e => hs (hc.2.1 e)
      have hcn := h.count_neg hlive hs hneg
      by_cases h1 : s.refs b = 1
      · right; right; right; left
        refine ⟨hneg, hs, hc.1, hcs, h1, ?_⟩
        have hB0 : B.count = -1 := by omega
        simp only [dropAction, hns, if_true, ne_eq, hcs, not_false_eq_true, hB0]
        rfl
      · right; right; right; right
        refine ⟨hneg, hs, hc.1, hcs, by omega, ?_⟩
        simp only [dropAction, hns, if_true, ne_eq, hcs, not_false_eq_true, synchronizedUniqueCount]
        have : (B.count == -1) = false := by
          rw [beq_eq_false_iff_ne]; omega
        rw [this, hcn]
        congr 1
        omega

theorem needs_tail {s : Core T} {owner : Addr → Option T} (h : Inv s owner) {t : T} {k : Task} {ks : List Task}
    (ht : s.tasks t = k :: ks) {b : Addr} (hk : k.needs = [b]) : needsOf t ks ≤ s.held.erase (t, b) := by
  have := h.needs t
  rw [ht, needsOf_cons, hk] at this
  have h2 : (([b].map fun b => (t, b) : List (T × Addr)) : Multiset (T × Addr)) + needsOf t ks = (t, b) ::ₘ needsOf t ks := by
    simp [Multiset.singleton_add]
  rw [h2] at this
  have := Multiset.erase_le_erase (t, b) this
  rwa [Multiset.erase_cons_head] at this

/-- `drop`, if the reference is not the last one. -/
theorem Inv.drop {s : Core T} {owner : Addr → Option T} (h : Inv s owner) {t : T} {b : Addr} {c : Int} {B : Block}
    {ks : List Task} (ht : s.tasks t = .dropLoaded b c :: ks) (hB : s.heap[b]? = some B)
    (hlast : (dropAction c B.count).2 = false) :
    Inv ⟨s.heap.set b { B with count := (dropAction c B.count).1 }, s.held.erase (t, b), Function.update s.tasks t ks⟩
      owner := by
  have hmem : Task.dropLoaded b c ∈ s.tasks t := by rw [ht]; exact List.mem_cons_self
  obtain ⟨hheld, hlive, hcases⟩ := h.drop_cases ht hB
  have hst := staticCount_eq
  have hrefs : ∀ x, heldRefs (s.held.erase (t, b)) x + fieldRefs s.heap x + (if b = x then 1 else 0) = s.refs x := by
    intro x
    have := heldRefs_erase hheld x
    unfold Core.refs
    simp only at this
    omega
  have hcases' : (B.count = staticCount ∧ (dropAction c B.count).1 = staticCount) ∨
      (0 ≤ B.count ∧ 1 < s.refs b ∧ (dropAction c B.count).1 = (s.refs b : Int) - 2) ∨
      (B.count < 0 ∧ B.count ≠ staticCount ∧ 1 < s.refs b ∧ (dropAction c B.count).1 = 1 - (s.refs b : Int)) := by
    rcases hcases with ⟨h1, _, h2⟩ | ⟨_, _, _, h2⟩ | ⟨h1, _, h3, h2⟩ | ⟨_, _, _, _, _, h2⟩ | ⟨h1, h4, _, _, h3, h2⟩
    · rw [h2]; exact Or.inl ⟨h1, rfl⟩
    · rw [h2] at hlast; cases hlast
    · rw [h2]; exact Or.inr (Or.inl ⟨h1, h3, rfl⟩)
    · rw [h2] at hlast; cases hlast
    · rw [h2]; exact Or.inr (Or.inr ⟨h1, h4, h3, rfl⟩)
  clear hcases
  have hbound : s.Live b B → B.count ≠ staticCount → _ := h.counted b B
  have hR : (Core.mk (s.heap.set b { B with count := (dropAction c B.count).1 }) (s.held.erase (t, b))
      (Function.update s.tasks t ks)).refs b + 1 = s.refs b := by
    rw [refs_recount hB]
    have := hrefs b
    simp only [if_true] at this
    exact this
  have hsign : (0 ≤ (dropAction c B.count).1 → 0 ≤ B.count) ∧ (B.count < 0 → (dropAction c B.count).1 < 0) := by
    rcases hcases' with ⟨h1, h2⟩ | ⟨h1, h2, h3⟩ | ⟨h1, h2, h3, h4⟩ <;> omega
  apply h.recount rfl hlive (.held hheld)
  · intro x hx
    have := heldRefs_erase hheld x
    rw [if_neg (Ne.symm hx)] at this
    exact this
  · rcases hcases' with ⟨h1, h2⟩ | ⟨h1, h2, h3⟩ | ⟨h1, h2, h3, h4⟩
    · left; exact ⟨h2, h1⟩
    · right
      obtain ⟨_, _, hb1, hb2⟩ := hbound hlive (by omega)
      have hcp := h.count_pos hlive h1
      refine ⟨by omega, by omega, Or.inl (by omega), by omega, by omega⟩
    · right
      obtain ⟨_, _, hb1, hb2⟩ := hbound hlive h2
      have hcp := h.count_neg hlive h2 h1
      refine ⟨by omega, by omega, Or.inr (by omega), by omega, by omega⟩
  · exact hsign.1
  · exact hsign.2
  · intro t' x hx
    exact Or.inl (Multiset.mem_of_mem_erase hx)
  · intro t' x hne hx
    exact (Multiset.mem_erase_of_ne (fun e => hne (Prod.mk.inj e).1)).2 hx
  · intro t' hne hle
    exact le_erase_of hle (fun hx => hne (mem_needsOf hx).symm)
  · intro x X hX ho hc
    exfalso
    obtain ⟨X0, hX0⟩ := h.ownerLive x t ho
    have hp := h.private_pos hmem (by simp [Task.isSync]) hX0 ho
    have := hX.1
    rw [heap_set hB] at this
    split at this
    · rename_i he
      subst he
      cases this
      have hX1 := hX0.1
      rw [hB] at hX1; cases hX1
      simp only at hc
      rcases hcases' with ⟨h1, h2⟩ | ⟨h1, h2, h3⟩ | ⟨h1, h2, h3, h4⟩ <;> omega
    · have hX1 := hX0.1
      rw [this] at hX1; cases hX1; omega
  · apply h.restOk ht (by simp [Task.consumes])
    · intro x X _ hX hd
      have hne : x ≠ b := by
        rintro rfl
        rw [hB] at hX; cases hX
        rw [hlive.2] at hd; cases hd
      exact ⟨X, by rw [heap_set hB, if_neg hne]; exact hX, hd⟩
    · intro x g X hne _ _ h1 hX
      simp only [Task.needs, List.mem_singleton] at hne
      refine ⟨?_, ⟨X, by rw [heap_set hB, if_neg hne]; exact hX, rfl⟩, fun ho => ho⟩
      rw [refs_recount hB]
      have := hrefs x
      rw [if_neg (Ne.symm hne)] at this
      omega
  · exact needs_tail h ht rfl
  · exact Or.inr (Or.inr (Or.inr (shape_consumes (ht ▸ h.shape t) (by simp [Task.consumes]))))
  · intro k hk
    exact h.loadedHead t k (by rw [ht]; exact List.mem_of_mem_tail hk)
  · intro x; rw [ht, List.count_cons]; simp

theorem pending_append {f : Addr} {ks ks' : List Task} : pending f (ks ++ ks') ↔ pending f ks ∨ pending f ks' := by
  simp only [pending, List.mem_append]
  constructor
  · rintro ((h | h) | ⟨c, h | h⟩)
    · exact Or.inl (Or.inl h)
    · exact Or.inr (Or.inl h)
    · exact Or.inl (Or.inr ⟨c, h⟩)
    · exact Or.inr (Or.inr ⟨c, h⟩)
  · rintro ((h | ⟨c, h⟩) | (h | ⟨c, h⟩))
    · exact Or.inl (Or.inl h)
    · exact Or.inr ⟨c, Or.inl h⟩
    · exact Or.inl (Or.inr h)
    · exact Or.inr ⟨c, Or.inr h⟩

theorem pending_cons {f : Addr} {k : Task} {ks : List Task} (h : pending f (k :: ks)) :
    k = .sync f ∨ (∃ c, k = .syncLoaded f c) ∨ pending f ks := by
  rcases h with h | ⟨c, h⟩
  · rcases List.mem_cons.1 h with h | h
    · exact Or.inl h.symm
    · exact Or.inr (Or.inr (Or.inl h))
  · rcases List.mem_cons.1 h with h | h
    · exact Or.inr (Or.inl ⟨c, h.symm⟩)
    · exact Or.inr (Or.inr (Or.inr ⟨c, h⟩))

theorem needsOf_sync {t : T} {ks : List Task} (h : ∀ k ∈ ks, k.isSync) : needsOf t ks = 0 := by
  have : ks.flatMap Task.needs = [] := by
    rw [List.flatMap_eq_nil_iff]
    intro k hk
    have := h k hk
    cases k <;> simp_all [Task.isSync, Task.needs]
  simp [needsOf, this]

theorem free_sync {b : Addr} {ks : List Task} (h : ∀ k ∈ ks, k.isSync) : ks.count (.free b) = 0 := by
  rw [List.count_eq_zero]
  intro hk
  exact h _ hk

/-- `synchronize` of a block that is not synchronized. -/
theorem Inv.sync {s : Core T} {owner : Addr → Option T} (h : Inv s owner) {t : T} {b : Addr} {c : Int} {B : Block}
    {ks : List Task} (ht : s.tasks t = .syncLoaded b c :: ks) (hB : s.heap[b]? = some B) (hc : isSynchronized c = false) :
    Inv ⟨s.heap.set b { B with count := synchronizeAction c B.count }, s.held,
      Function.update s.tasks t (B.fields.reduceOption.map Task.sync ++ ks)⟩ owner ∧ s.Live b B ∧ owner b = some t := by
  have hmem : Task.syncLoaded b c ∈ s.tasks t := by rw [ht]; exact List.mem_cons_self
  obtain ⟨hr, hlo⟩ := h.taskOk t _ hmem
  obtain ⟨B0, hB0⟩ := h.reach_live hr
  have hlive : s.Live b B := by
    have := hB0.1
    rw [hB] at this; cases this; exact hB0
  have hlo := hlo B hB
  have hst := staticCount_eq
  rw [isSynchronized_false] at hc
  have h0 : 0 ≤ B.count := by
    by_contra hn
    have := (hlo.2 (by omega)).1
    omega
  have hcB := hlo.1 h0
  have hcp := h.count_pos hlive h0
  obtain ⟨hrp, _, hb1, hb2⟩ := h.counted b B hlive (by omega)
  have hn : synchronizeAction c B.count = -(s.refs b : Int) := by
    simp only [synchronizeAction, isSynchronized_false.2 hc, Bool.not_false, if_true, synchronizedUniqueCount]
    omega
  have hown : owner b = some t := by
    obtain ⟨t', ht'⟩ := h.owned b B hlive h0
    rw [h.owner_reach hr ht']; exact ht'
  have hks : ∀ k ∈ ks, k.isSync := shape_sync (ht ▸ h.shape t) (by simp [Task.isSync])
  have hall : ∀ k ∈ B.fields.reduceOption.map Task.sync ++ ks, k.isSync := by
    intro k hk
    rcases List.mem_append.1 hk with hk | hk
    · obtain ⟨f, _, rfl⟩ := List.mem_map.1 hk; trivial
    · exact hks k hk
  have hloaded : ∀ k ∈ B.fields.reduceOption.map Task.sync ++ ks, ¬ k.isLoaded := by
    intro k hk
    rcases List.mem_append.1 hk with hk | hk
    · obtain ⟨f, _, rfl⟩ := List.mem_map.1 hk; exact id
    · exact h.loadedHead t k (by rw [ht]; exact hk)
  have hR : (Core.mk (s.heap.set b { B with count := synchronizeAction c B.count }) s.held
      (Function.update s.tasks t (B.fields.reduceOption.map Task.sync ++ ks))).refs b = s.refs b := by
    rw [refs_recount hB]; rfl
  have hmono : ∀ x, s.Reach t x → (Core.mk (s.heap.set b { B with count := synchronizeAction c B.count }) s.held
      (Function.update s.tasks t (B.fields.reduceOption.map Task.sync ++ ks))).Reach t x := by
    intro x hx
    refine hx.mono (s := s) (s' := Core.mk (s.heap.set b { B with count := synchronizeAction c B.count }) s.held
      (Function.update s.tasks t (B.fields.reduceOption.map Task.sync ++ ks))) (fun y hy => hy) (fun a A _ ha => ?_)
    by_cases he : a = b
    · subst he; rw [hB] at ha; cases ha
      exact ⟨{ B with count := synchronizeAction c B.count }, by rw [heap_set hB, if_pos rfl], fun _ h => h⟩
    · exact ⟨A, by rw [heap_set hB, if_neg he]; exact ha, fun _ h => h⟩
  refine ⟨?_, hlive, hown⟩
  apply h.recount rfl hlive hr
  · intro x _; rfl
  · right
    rw [hR, hn]
    refine ⟨by omega, hrp, Or.inr rfl, ?_, ?_⟩ <;> omega
  · intro h1; omega
  · intro h1; omega
  · intro t' x hx; exact Or.inl hx
  · intro t' x _ hx; exact hx
  · intro t' _ hle; exact hle
  · intro x X hX ho hcx
    refine ⟨hall, fun f hf => ?_⟩
    have hX1 := hX.1
    simp only at hX1
    rw [heap_set hB] at hX1
    split at hX1
    · rename_i he
      cases hX1
      right
      rw [pending_append]
      exact Or.inl (Or.inl (List.mem_map.2 ⟨f, List.reduceOption_mem_iff.2 hf, rfl⟩))
    · have hmark : ∀ f, s.Marked f ∨ f = b → (Core.mk (s.heap.set b { B with count := synchronizeAction c B.count }) s.held
          (Function.update s.tasks t (B.fields.reduceOption.map Task.sync ++ ks))).Marked f := by
        intro f hf
        by_cases he : f = b
        · subst he
          exact ⟨{ B with count := synchronizeAction c B.count }, by rw [heap_set hB, if_pos rfl], by simp only; omega⟩
        · obtain ⟨F, hF, hFc⟩ := hf.resolve_right he
          exact ⟨F, by rw [heap_set hB, if_neg he]; exact hF, hFc⟩
      rcases (h.marked x X t ⟨hX1, hX.2⟩ ho hcx).2 f hf with h1 | h1
      · exact Or.inl (hmark f (Or.inl h1))
      · rw [ht] at h1
        rcases pending_cons h1 with h1 | ⟨_, h1⟩ | h1
        · cases h1
        · cases h1; exact Or.inl (hmark _ (Or.inr rfl))
        · exact Or.inr (pending_append.2 (Or.inr h1))
  · intro k hk
    rcases List.mem_append.1 hk with hk | hk
    · obtain ⟨f, hf, rfl⟩ := List.mem_map.1 hk
      exact hmono f (.field hr hB (List.reduceOption_mem_iff.1 hf))
    · have hk' : k ∈ s.tasks t := by rw [ht]; exact List.mem_cons_of_mem _ hk
      have hok := h.taskOk t k hk'
      have h1 := hks k hk
      have h2 := h.loadedHead t k (by rw [ht]; exact hk)
      cases k with
      | sync x => exact hmono x hok
      | syncLoaded x c => exact absurd trivial h2
      | _ => exact absurd h1 id
  · rw [needsOf_sync hall]; exact Multiset.zero_le _
  · exact Or.inr (Or.inr (Or.inl hall))
  · intro k hk; exact hloaded k (List.mem_of_mem_tail hk)
  · intro x
    rw [free_sync hall, free_sync]
    intro k hk
    rw [ht] at hk
    rcases List.mem_cons.1 hk with rfl | hk
    · trivial
    · exact hks k hk

end Verif.Runtime.Graph
