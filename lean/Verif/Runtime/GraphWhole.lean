import Verif.Runtime.GraphRun

/-
`RecordUpdate` in place, and all steps together.
-/
namespace Verif.Runtime.Graph

open Verif.Runtime.Arc (isSynchronized staticCount uniqueCount synchronizedUniqueCount cloneAction dropAction
  synchronizeAction isUnique)

variable {T : Type} [DecidableEq T]

theorem Ok.startUpdate {s : State T} {owner : Addr → Option T} (h : Ok s owner) {t : T} {b g : Addr} {j : Nat} {c : Int}
    {B : Block} {ks : List Task} {old : Option Addr} (ht : s.tasks t = .update b j g :: ks) (hB : s.heap[b]? = some B)
    (hload : LoadsUnique B c) (hu : isUnique c = true) (hj : B.fields[j]? = some old)
    (hcareful : isSynchronized c = true → ∃ G : Block, s.heap[g]? = some G ∧ isSynchronized G.count = true) :
    Ok (s.startUpdate t b j g c ks B old) owner := by
  have e : s.core.tasks t = .update b j g :: ks := ht
  obtain ⟨hinv, hlive, h1, hheld⟩ := h.inv.startUpdate e hB hload hu hj hcareful
  obtain ⟨_, hnst, hsync⟩ := h.inv.unique hlive hload hu
  have hr : s.core.Reach t b := .held hheld
  have key : ∃ s1 : State T, ((if isSynchronized c then (s.access t b .count .atomic).learn t ((s.access t b .count .atomic).view b)
      else s.access t b .count .atomic).access t b .content .read) = s1 ∧
      Ok s1 owner ∧ s1.core = s.core ∧ (owner b = none → s1.view b ⊆ s1.know t) ∧ s1.events b ⊆ s1.know t := by
    refine ⟨_, rfl, ?_⟩
    have ha := h.read hr (l := .count) (k := .atomic) (by simp)
    by_cases hs : isSynchronized c = true
    · rw [if_pos hs]
      have hk := ha.learn t ((s.access t b .count .atomic).view b)
      have hv : ((s.access t b .count .atomic).learn t ((s.access t b .count .atomic).view b)).view b ⊆
          ((s.access t b .count .atomic).learn t ((s.access t b .count .atomic).view b)).know t := by
        intro i hi
        simp only [State.learn, Function.update_self]
        exact Or.inr hi
      have hev := hk.unique_events hlive hnst h1 hheld (fun _ => hv)
      exact ⟨hk.read hr (by simp), rfl, fun _ => hv.trans know_access, events_known hev⟩
    · rw [if_neg hs]
      have h0 : 0 ≤ B.count := by
        by_contra hn
        exact hs (hsync.2 (by omega))
      obtain ⟨h8, h9, _, _⟩ := h.private_facts hB hr h0
      refine ⟨ha.read hr (by simp), rfl, ?_, events_known (events_known h9)⟩
      intro ho
      rw [h8] at ho; cases ho
  obtain ⟨s1, hs1, hk, hcore, hview, hev⟩ := key
  unfold State.startUpdate
  simp only
  rw [hs1]
  have hheap : s1.heap = s.heap := congrArg Core.heap hcore
  have hheld1 : s1.held = s.held := congrArg Core.held hcore
  have htasks : s1.tasks = s.tasks := congrArg Core.tasks hcore
  rw [← hcore] at hr h1 hlive
  rw [← hheap] at hB
  have hheld : (t, b) ∈ s1.held := by rw [hheld1]; exact hheld
  rw [← htasks] at ht
  have e1 : s.core.heap = s1.heap := hheap.symm
  have e2 : s.core.held = s1.held := hheld1.symm
  have e3 : s.core.tasks = s1.tasks := htasks.symm
  rw [e1, e2, e3] at hinv
  clear hs1 h e e1 e2 e3 hcareful
  have hget : ∀ x, (s1.heap.set b { B with fields := B.fields.set j none })[x]? =
      if x = b then some { B with fields := B.fields.set j none } else s1.heap[x]? := heap_set hB _
  have hold : ∀ (x : Addr) (X' : Block), (s1.heap.set b { B with fields := B.fields.set j none })[x]? = some X' →
      ∃ X : Block, s1.heap[x]? = some X ∧
      (∀ f, some f ∈ X'.fields → some f ∈ X.fields) ∧ X'.count = X.count ∧ X'.status = X.status := by
    intro x X' hX
    rw [hget] at hX
    split at hX
    · rename_i he
      subst he
      cases hX
      refine ⟨B, hB, fun f hf => ?_, rfl, rfl⟩
      rcases mem_set_field hf with hf | hf
      · exact hf
      · cases hf
    · exact ⟨X', hX, fun _ h => h, rfl, rfl⟩
  -- a field is still there, or was taken out
  have hfield : ∀ y, some y ∈ B.fields → some y ∈ B.fields.set j none ∨ old = some y := by
    intro y hy
    obtain ⟨m, hm⟩ := List.mem_iff_getElem?.1 hy
    by_cases hmj : m = j
    · subst hmj
      rw [hj] at hm
      exact Or.inr (Option.some.inj hm)
    · left
      refine List.mem_iff_getElem?.2 ⟨m, ?_⟩
      rw [List.getElem?_set, if_neg (Ne.symm hmj)]
      exact hm
  have htl : ∀ k ∈ ks, k ∈ s1.tasks t := fun k hk => by rw [ht]; exact List.mem_cons_of_mem _ hk
  have htk : ∀ t' k, k ∈ Function.update s1.tasks t ([old].reduceOption.map Task.drop ++ Task.store b j g :: ks) t' →
      k ∈ s1.tasks t' ∨ (t' = t ∧ ((∃ f, k = .drop f) ∨ k = .store b j g)) := by
    intro t' k hk
    by_cases htt : t' = t
    · subst htt
      rw [Function.update_self] at hk
      rcases List.mem_append.1 hk with hk | hk
      · obtain ⟨f, _, rfl⟩ := List.mem_map.1 hk
        exact Or.inr ⟨rfl, Or.inl ⟨f, rfl⟩⟩
      · rcases List.mem_cons.1 hk with hk | hk
        · exact Or.inr ⟨rfl, Or.inr hk⟩
        · exact Or.inl (htl k hk)
    · rw [Function.update_of_ne htt] at hk; exact Or.inl hk
  have hrefs : ∀ y, old = some y → (t, y) ∈ s1.held + references t [old] := by
    intro y hy
    exact Multiset.mem_add.2 (Or.inr (mem_references.2 ⟨rfl, by rw [hy]; simp⟩))
  refine hk.change rfl (fun _ => rfl) rfl rfl (by simp [State.setTasks]) hinv ?_ (fun _ _ h => Or.inl h) ?_ ?_ ?_ ?_ ?_
  · refine hk.acyclic.sub fun a x A' ha hx => ?_
    obtain ⟨A, hA, hf, _⟩ := hold a A' ha
    exact ⟨A, hA, hf x hx⟩
  · intro t' x hx
    left
    refine hx.sub (s := s1.core) ?_ ?_
    · intro y hy
      rcases Multiset.mem_add.1 hy with hy | hy
      · exact .held hy
      · obtain ⟨e1, e2⟩ := mem_references.1 hy
        simp only [List.mem_singleton] at e1 e2
        subst e1
        exact .field hr hB (by rw [e2]; exact List.mem_of_getElem? hj)
    · intro a A' y ha hA' hy
      obtain ⟨A, hA, hf, _⟩ := hold a A' hA'
      exact .field ha hA (hf y hy)
  · intro x X' hX' ho hc i hi
    obtain ⟨X, hX, _, hc', hs⟩ := hold x X' hX'.1
    refine Covered.transfer (P := fun _ => True) (s := s1) (owner := owner) ?_ ?_ ?_ ?_
      (hk.know.shared x X ⟨hX, by rw [← hs]; exact hX'.2⟩ ho (by rw [← hc']; exact hc) i hi) trivial
    · intro y _ hv; exact .view hv
    · intro y t' hy h2 h3
      exact .held (Multiset.mem_add.2 (Or.inl h2)) h3
    · intro a A y t' hy h2 h3 h4 h5
      by_cases hab : a = b
      · subst hab
        rw [hB] at h2; cases h2
        have := hk.inv.ownerHeld a t' t h4 hheld
        subst this
        rcases hfield y h3 with h6 | h6
        · exact .owned (a := a) (A := { B with fields := B.fields.set j none }) ((hget a).trans (if_pos rfl)) h6 h4 h5
        · exact .held (hrefs y h6) h5
      · refine .owned (a := a) (A := A) ?_ h3 h4 h5
        exact (hget a).trans (by rw [if_neg hab]; exact h2)
    · intro a A y hy h2 h3 h4 h5 ih
      by_cases hab : a = b
      · subst hab
        rw [hB] at h2; cases h2
        rcases hfield y h3 with h6 | h6
        · exact .field (a := a) (A := { B with fields := B.fields.set j none }) ((hget a).trans (if_pos rfl)) h6 h4 (ih trivial)
        · exact .held (hrefs y h6) (h5.unique h1 hheld (hview h4))
      · refine .field (a := a) (A := A) ?_ h3 h4 (ih trivial)
        exact (hget a).trans (by rw [if_neg hab]; exact h2)
  · intro t' x hx
    rcases htk t' _ hx with hx' | ⟨rfl, ⟨f, hx'⟩ | hx'⟩
    · exact Or.inl hx'
    · cases hx'
    · cases hx'
  · intro t' x j g hx
    rcases htk t' _ hx with hx' | ⟨rfl, ⟨f, hx'⟩ | hx'⟩
    · exact Or.inl hx'
    · cases hx'
    · cases hx'; exact Or.inr hev
  · intro x X' hX' hc
    obtain ⟨X, hX, _, hc', _⟩ := hold x X' hX'
    exact ⟨X, hX, by rw [← hc']; exact hc⟩

theorem Ok.finishUpdate {s : State T} {owner : Addr → Option T} (h : Ok s owner) {t : T} {b g : Addr} {j : Nat}
    {B : Block} {ks : List Task} (ht : s.tasks t = .store b j g :: ks) (hB : s.heap[b]? = some B) :
    Ok (s.finishUpdate t b j g ks B) owner := by
  have e : s.core.tasks t = .store b j g :: ks := ht
  have hmem : Task.store b j g ∈ s.tasks t := by rw [ht]; exact List.mem_cons_self
  obtain ⟨hinv, hlive, h1, hheld, hgb, hheldg, hj⟩ := h.inv.finishUpdate e hB
  have hr : s.core.Reach t b := .held hheld
  have hnst : ∀ X : Block, s.heap[b]? = some X → X.count ≠ staticCount := by
    intro X hX hc
    rw [hB] at hX; cases hX
    rw [(h.inv.statics b B hlive hc).2] at hj
    cases hj
  have hu : ∀ t', s.core.Reach t' b → t' = t := fun t' hr' => Core.unique_reach h1 hheld hr'
  have hk := h.write hr (l := .content) (h.know.storing t b j g hmem) hu hnst
  have hnof := (Core.unique_ref h1 hheld).2
  unfold State.finishUpdate
  simp only
  have hget : ∀ x, (s.heap.set b { B with fields := B.fields.set j (some g) })[x]? =
      if x = b then some { B with fields := B.fields.set j (some g) } else s.heap[x]? := heap_set hB _
  have hold : ∀ (x : Addr) (X' : Block), (s.heap.set b { B with fields := B.fields.set j (some g) })[x]? = some X' →
      ∃ X : Block, s.heap[x]? = some X ∧
      (∀ f, some f ∈ X'.fields → some f ∈ X.fields ∨ (x = b ∧ f = g)) ∧ X'.count = X.count ∧ X'.status = X.status := by
    intro x X' hX
    rw [hget] at hX
    split at hX
    · rename_i he
      subst he
      cases hX
      refine ⟨B, hB, fun f hf => ?_, rfl, rfl⟩
      rcases mem_set_field hf with hf | hf
      · exact Or.inl hf
      · cases hf; exact Or.inr ⟨rfl, rfl⟩
    · exact ⟨X', hX, fun _ h => Or.inl h, rfl, rfl⟩
  have hjl : j < B.fields.length := by
    rcases Nat.lt_or_ge j B.fields.length with h' | h'
    · exact h'
    · rw [List.getElem?_eq_none h'] at hj; cases hj
  have hfield : ∀ y, some y ∈ B.fields → some y ∈ B.fields.set j (some g) := by
    intro y hy
    obtain ⟨m, hm⟩ := List.mem_iff_getElem?.1 hy
    by_cases hmj : m = j
    · subst hmj
      rw [hj] at hm
      cases hm
    · refine List.mem_iff_getElem?.2 ⟨m, ?_⟩
      rw [List.getElem?_set, if_neg (Ne.symm hmj)]
      exact hm
  have hg : some g ∈ B.fields.set j (some g) := by
    refine List.mem_iff_getElem?.2 ⟨j, ?_⟩
    rw [List.getElem?_set, if_pos rfl, if_pos hjl]
  have htl : ∀ k ∈ ks, k ∈ s.tasks t := fun k hk => by rw [ht]; exact List.mem_cons_of_mem _ hk
  have htk : ∀ t' k, k ∈ Function.update s.tasks t ks t' → k ∈ s.tasks t' := by
    intro t' k hk
    by_cases htt : t' = t
    · subst htt; rw [Function.update_self] at hk; exact htl k hk
    · rw [Function.update_of_ne htt] at hk; exact hk
  refine hk.change rfl (fun _ => rfl) rfl rfl (by simp [State.setTasks]) hinv ?_ (fun _ _ h => Or.inl h) ?_ ?_ ?_ ?_ ?_
  · obtain ⟨rank, hrank⟩ := h.acyclic
    refine ⟨Function.update rank b (max (rank b) (rank g + 1)), fun a x A' ha hx => ?_⟩
    obtain ⟨A, hA, hf, _⟩ := hold a A' ha
    have hxb : x ≠ b := by
      rcases hf x hx with hf' | ⟨_, e2⟩
      · intro e2; exact hnof a A hA (e2 ▸ hf')
      · rw [e2]; exact hgb
    rw [Function.update_of_ne hxb]
    by_cases hab : a = b
    · subst hab
      rw [Function.update_self]
      rcases hf x hx with hf | ⟨_, rfl⟩
      · have := hrank a x A hA hf
        omega
      · omega
    · rw [Function.update_of_ne hab]
      exact hrank a x A hA ((hf x hx).resolve_right (fun h => hab h.1))
  · intro t' x hx
    left
    refine hx.sub (s := s.core) ?_ ?_
    · intro y hy; exact .held (Multiset.mem_of_mem_erase hy)
    · intro a A' y ha hA' hy
      obtain ⟨A, hA, hf, _⟩ := hold a A' hA'
      rcases hf y hy with hf | ⟨e1, e2⟩
      · exact .field ha hA hf
      · subst e1 e2
        rw [hu t' ha]
        exact .held hheldg
  · intro x X' hX' ho hc i hi
    obtain ⟨X, hX, _, hc', hs⟩ := hold x X' hX'.1
    have hcovb : ∀ t', t' = t → i ∈ (s.access t b .content .write).know t' →
        Covered (({ s.access t b .content .write with
          heap := (s.access t b .content .write).heap.set b { B with fields := B.fields.set j (some g) },
          held := (s.access t b .content .write).held.erase (t, g) } : State T).setTasks t ks) owner i b := by
      intro t' e1 h3
      subst e1
      refine .held (t := t') ?_ h3
      refine (Multiset.mem_erase_of_ne ?_).2 hheld
      intro e2; cases e2; exact hgb rfl
    refine Covered.transfer (P := fun _ => True) (owner := owner) ?_ ?_ ?_ ?_
      (hk.know.shared x X ⟨hX, by rw [← hs]; exact hX'.2⟩ ho (by rw [← hc']; exact hc) i hi) trivial
    · intro y _ hv; exact .view hv
    · intro y t' hy h2 h3
      by_cases he : (t', y) = (t, g)
      · cases he
        have hgf : (s.heap.set b { B with fields := B.fields.set j (some g) })[b]? = some { B with fields := B.fields.set j (some g) } :=
          (hget b).trans (if_pos rfl)
        cases hob : owner b with
        | none => exact .field (a := b) hgf hg hob (hcovb t rfl h3)
        | some t1 =>
          have := h.inv.ownerHeld b t1 t hob hheld
          subst this
          exact .owned (a := b) hgf hg hob h3
      · exact .held ((Multiset.mem_erase_of_ne he).2 h2) h3
    · intro a A y t' hy h2 h3 h4 h5
      by_cases hab : a = b
      · subst hab
        have h2 : s.heap[a]? = some A := h2
        rw [hB] at h2; cases h2
        exact .owned (a := a) (A := { B with fields := B.fields.set j (some g) }) ((hget a).trans (if_pos rfl)) (hfield y h3) h4 h5
      · refine .owned (a := a) (A := A) ?_ h3 h4 h5
        exact (hget a).trans (by rw [if_neg hab]; exact h2)
    · intro a A y hy h2 h3 h4 h5 ih
      by_cases hab : a = b
      · subst hab
        have h2 : s.heap[a]? = some A := h2
        rw [hB] at h2; cases h2
        exact .field (a := a) (A := { B with fields := B.fields.set j (some g) }) ((hget a).trans (if_pos rfl)) (hfield y h3) h4 (ih trivial)
      · refine .field (a := a) (A := A) ?_ h3 h4 (ih trivial)
        exact (hget a).trans (by rw [if_neg hab]; exact h2)
  · intro t' x hx; exact Or.inl (htk t' _ hx)
  · intro t' x j g hx; exact Or.inl (htk t' _ hx)
  · intro x X' hX' hc
    obtain ⟨X, hX, _, hc', _⟩ := hold x X' hX'
    exact ⟨X, hX, by rw [← hc']; exact hc⟩

/-! ### All steps -/

theorem Ok.initial (statics : Nat) : Ok (State.initial statics : State T) (fun _ => none) := by
  have hrep : ∀ (b : Addr) (B : Block), (List.replicate statics (Block.mk staticCount [] .live))[b]? = some B →
      B = ⟨staticCount, [], .live⟩ := by
    intro b B hB
    rw [List.getElem?_replicate] at hB
    split at hB
    · cases hB; rfl
    · cases hB
  have hrefs : ∀ b, (State.initial statics : State T).core.refs b = 0 := by
    intro b
    rcases Nat.eq_zero_or_pos ((State.initial statics : State T).core.refs b) with h | h
    · exact h
    · exfalso
      have h0 : heldRefs (State.initial statics : State T).core.held b = 0 := rfl
      unfold Core.refs at h
      obtain ⟨a, A, ha, hm⟩ := fieldRefs_pos (heap := (State.initial statics : State T).core.heap) (b := b) (by omega)
      rw [hrep a A ha] at hm; cases hm
  have hreach : ∀ t b, ¬ (State.initial statics : State T).core.Reach t b := by
    intro t b hr
    have := hr.refs
    rw [hrefs] at this
    omega
  exact {
    inv :=
      { target := fun b hb => by rw [hrefs] at hb; omega
        counted := fun b B hB hc => by rw [hrep b B hB.1] at hc; exact absurd rfl hc
        owned := fun b B hB hc => by
          rw [hrep b B hB.1] at hc
          simp [staticCount_eq] at hc
        ownerLive := fun _ _ h => by cases h
        ownerHeld := fun _ _ _ h => by cases h
        ownerField := fun _ _ _ _ h => by cases h
        statics := fun b B hB _ => ⟨rfl, by rw [hrep b B hB.1]⟩
        dead := fun b B hB hs => by rw [hrep b B hB] at hs; exact absurd rfl hs
        marked := fun _ _ _ _ h => by cases h
        taskOk := fun _ _ h => by cases h
        needs := fun _ => Multiset.zero_le _
        shape := fun _ => Or.inr (Or.inr (Or.inl (by intro k hk; cases hk)))
        loadedHead := fun _ _ h => by cases h
        frees := fun _ _ => by simp [State.core, State.initial]
        freesOnce := fun _ _ _ h => by cases h
        dying := fun b B hB hd => by rw [hrep b B hB] at hd; cases hd }
    know :=
      { owned := fun _ _ h => by cases h
        reach := fun t b hr => absurd hr (hreach t b)
        shared := fun _ _ _ _ _ i hi => by
          obtain ⟨_, _, hi⟩ := hi
          cases hi
        freeing := fun _ _ h => by cases h
        storing := fun _ _ _ _ h => by cases h
        statics := fun b _ _ _ => by
          rw [Set.eq_empty_iff_forall_notMem]
          rintro i ⟨_, hi⟩
          cases hi
        bound := fun i b l k hi => by cases hi }
    acyclic := ⟨fun _ => 0, fun a b A ha hb => by
      have ha : (List.replicate statics (Block.mk staticCount [] .live))[a]? = some A := ha
      rw [hrep a A ha] at hb; cases hb⟩
    broken := id
    race := id }

theorem Ok.step {s s' : State T} {owner : Addr → Option T} (h : Ok s owner) {t : T} (hs : Step true t s s') :
    ∃ owner', Ok s' owner' := by
  cases hs with
  | static _ _ b B ht hB hc => exact ⟨owner, h.staticRef hB hc⟩
  | allocate _ _ fs ht hle =>
    obtain ⟨owner', h', hset⟩ := h.settle ht
    exact h'.allocate ht hset hle
  | clone _ _ b ht hh =>
    obtain ⟨owner', h', hset⟩ := h.settle ht
    refine ⟨owner', h'.start ht hset (k := .clone b) (.held hh) ?_ (Or.inl ⟨b, rfl⟩) (by simp) (by simp)⟩
    exact Multiset.zero_le _
  | drop _ _ b ht hh =>
    obtain ⟨owner', h', hset⟩ := h.settle ht
    refine ⟨owner', h'.start ht hset (k := .drop b) trivial ?_ (Or.inr (Or.inr (Or.inr ?_))) (by simp) (by simp)⟩
    · exact Multiset.singleton_le.2 hh
    · intro k hk; rw [List.mem_singleton] at hk; subst hk; trivial
  | sync _ _ b ht hh =>
    obtain ⟨owner', h', hset⟩ := h.settle ht
    refine ⟨owner', h'.start ht hset (k := .sync b) (.held hh) ?_ (Or.inr (Or.inr (Or.inl ?_))) (by simp) (by simp)⟩
    · exact Multiset.zero_le _
    · intro k hk; rw [List.mem_singleton] at hk; subst hk; trivial
  | field _ _ b B f ht hh hB hf =>
    obtain ⟨owner', h', hset⟩ := h.settle ht
    have hr : s.core.Reach t b := .held hh
    have h'' := h'.read hr (l := .content) (k := .read) (by simp)
    refine ⟨owner', h''.start ht hset (k := .clone f) (.field hr hB hf) ?_ (Or.inl ⟨f, rfl⟩) (by simp) (by simp)⟩
    exact Multiset.zero_le _
  | update _ _ b i g ht hh =>
    obtain ⟨owner', h', hset⟩ := h.settle ht
    refine ⟨owner', h'.start ht hset (k := .update b i g) trivial ?_ (Or.inr (Or.inr (Or.inr ?_))) (by simp) (by simp)⟩
    · exact hh
    · intro k hk; rw [List.mem_singleton] at hk; subst hk; trivial
  | send _ _ t' b B ht ht' hh hB hc =>
    obtain ⟨owner', h', hset⟩ := h.settle ht
    exact ⟨owner', h'.send ht ht' hset hh hB hc⟩
  | loadClone _ _ b c ks B ht hB hl => exact ⟨owner, h.load ht hB hl .clone⟩
  | finishClone _ _ b c ks B ht hB hf => exact ⟨owner, h.finishClone ht hB hf⟩
  | loadDrop _ _ b c ks B ht hB hl => exact ⟨owner, h.load ht hB hl .drop⟩
  | finishDrop _ _ b c ks B ht hB hf => exact ⟨owner, h.finishDrop ht hB hf⟩
  | finishLastDrop _ _ b c ks B ht hB hf => exact h.finishLastDrop ht hB hf
  | free _ _ b ks B ht hB => exact ⟨owner, h.finishFree ht hB⟩
  | loadSync _ _ b c ks B ht hB hl => exact ⟨owner, h.load ht hB hl .sync⟩
  | synchronized _ _ b c ks ht hc => exact ⟨owner, h.synchronized ht hc⟩
  | finishSync _ _ b c ks B ht hB hc => exact ⟨owner, h.finishSync ht hB hc⟩
  | startUpdate _ _ b i g c ks B old ht hB hl hu hi hcareful =>
    exact ⟨owner, h.startUpdate ht hB hl hu hi (hcareful rfl)⟩
  | shared _ _ b i g c ks B ht hB hl hu => exact ⟨owner, h.notUnique ht⟩
  | finishUpdate _ _ b i g ks B ht hB => exact ⟨owner, h.finishUpdate ht hB⟩

theorem Reachable.ok {s : State T} (h : Reachable true s) : ∃ owner, Ok s owner := by
  induction h with
  | initial statics => exact ⟨_, Ok.initial statics⟩
  | step _ hs ih =>
    obtain ⟨owner, ih⟩ := ih
    exact ih.step hs

end Verif.Runtime.Graph
