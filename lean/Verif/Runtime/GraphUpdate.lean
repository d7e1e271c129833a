import Verif.Runtime.GraphSteps

/-
`RecordUpdate` in place, allocation, static blocks and messages.
-/
namespace Verif.Runtime.Graph

open Verif.Runtime.Arc (isSynchronized staticCount uniqueCount synchronizedUniqueCount cloneAction dropAction
  synchronizeAction isUnique)

variable {T : Type} [DecidableEq T]

theorem count_set_field {fs : List (Option Addr)} {i : Nat} {old new : Option Addr} (h : fs[i]? = some old) (x : Option Addr) :
    (fs.set i new).count x + (if old = x then 1 else 0) = fs.count x + if new = x then 1 else 0 := by
  induction fs generalizing i with
  | nil => simp at h
  | cons f fs ih =>
    cases i with
    | zero =>
      simp only [List.getElem?_cons_zero, Option.some.injEq] at h
      subst h
      simp only [List.set_cons_zero, List.count_cons, beq_iff_eq]
      omega
    | succ i =>
      simp only [List.getElem?_cons_succ] at h
      have := ih h
      simp only [List.set_cons_succ, List.count_cons]
      omega

theorem mem_set_field {fs : List (Option Addr)} {i : Nat} {new f : Option Addr} (h : f ∈ fs.set i new) : f ∈ fs ∨ f = new :=
  List.mem_or_eq_of_mem_set h

/-- A task of a thread whose first task needs two references. -/
theorem two_needs {s : Core T} {owner : Addr → Option T} (h : Inv s owner) {t : T} {k : Task} {ks : List Task} {b g : Addr}
    (ht : s.tasks t = k :: ks) (hk : k.needs = [b, g]) : (t, b) ∈ s.held ∧ (t, g) ∈ s.held ∧ (s.refs b = 1 → g ≠ b) := by
  have hmem : k ∈ s.tasks t := by rw [ht]; exact List.mem_cons_self
  refine ⟨mem_of_needs h hmem (by rw [hk]; simp), mem_of_needs h hmem (by rw [hk]; simp), ?_⟩
  rintro h1 rfl
  have hle := h.needs t
  rw [ht, needsOf_cons, hk] at hle
  have hle := le_trans (Multiset.le_add_right _ _) hle
  have := heldRefs_sub hle g
  have h2 : heldRefs (([g, g].map fun b => (t, b) : List (T × Addr)) : Multiset (T × Addr)) g = 2 := by
    simp [heldRefs]
  unfold Core.refs at h1
  omega

/-- What a loaded count that says that a block is unique means. -/
theorem Inv.unique {s : Core T} {owner : Addr → Option T} (h : Inv s owner) {b : Addr} {B : Block} {c : Int}
    (hB : s.Live b B) (hload : LoadsUnique B c) (hu : isUnique c = true) :
    s.refs b = 1 ∧ B.count ≠ staticCount ∧ (isSynchronized c = true ↔ B.count < 0) := by
  have hst := staticCount_eq
  obtain ⟨hl, h1⟩ := hload
  have hc : c = -1 ∨ c = 0 := by
    simp only [isUnique, beq_iff_eq, isSynchronized, synchronizedUniqueCount, uniqueCount, decide_eq_true_eq] at hu
    by_cases hn : c < 0
    · rw [if_pos hn] at hu; exact Or.inl hu
    · rw [if_neg hn] at hu; exact Or.inr hu
  rcases hc with hc | hc
  · have hB1 := h1 hc
    obtain ⟨hp, h2, _⟩ := h.counted b B hB (by omega)
    refine ⟨by omega, by omega, ?_⟩
    rw [isSynchronized_iff]; omega
  · have hB0 : B.count = 0 := by
      rcases hl with hl | ⟨_, _, hl, _⟩ <;> omega
    obtain ⟨hp, h2, _⟩ := h.counted b B hB (by omega)
    refine ⟨by omega, by omega, ?_⟩
    rw [isSynchronized_iff]; omega

/-- The start of `RecordUpdate` in place. -/
theorem Inv.startUpdate {s : Core T} {owner : Addr → Option T} (h : Inv s owner) {t : T} {b g : Addr} {i : Nat} {c : Int}
    {B : Block} {ks : List Task} {old : Option Addr} (ht : s.tasks t = .update b i g :: ks) (hB : s.heap[b]? = some B)
    (hload : LoadsUnique B c) (hu : isUnique c = true) (hi : B.fields[i]? = some old)
    (hcareful : isSynchronized c = true → ∃ G : Block, s.heap[g]? = some G ∧ isSynchronized G.count = true) :
    Inv ⟨s.heap.set b { B with fields := B.fields.set i none }, s.held + references t [old],
      Function.update s.tasks t ([old].reduceOption.map Task.drop ++ Task.store b i g :: ks)⟩ owner ∧
      s.Live b B ∧ s.refs b = 1 ∧ (t, b) ∈ s.held := by
  have hmem : Task.update b i g ∈ s.tasks t := by rw [ht]; exact List.mem_cons_self
  obtain ⟨hheld, hheldg, hgb⟩ := two_needs h ht (b := b) (g := g) rfl
  have hlive := live_of_held h hheld hB
  obtain ⟨h1, hnst, hsync⟩ := h.unique hlive hload hu
  have hgb := hgb h1
  refine ⟨?_, hlive, h1, hheld⟩
  have hst := staticCount_eq
  obtain ⟨huniq, hnof⟩ := Core.unique_ref h1 hheld
  generalize hs' : (⟨s.heap.set b { B with fields := B.fields.set i none }, s.held + references t [old],
      Function.update s.tasks t ([old].reduceOption.map Task.drop ++ Task.store b i g :: ks)⟩ : Core T) = s'
  have hget : ∀ x, s'.heap[x]? = if x = b then some { B with fields := B.fields.set i none } else s.heap[x]? := by
    intro x; rw [← hs']; exact heap_set hB _ x
  have hgetne : ∀ x, x ≠ b → s'.heap[x]? = s.heap[x]? := by intro x hx; rw [hget, if_neg hx]
  have hheld' : s'.held = s.held + references t [old] := by rw [← hs']
  have htasks : s'.tasks t = [old].reduceOption.map Task.drop ++ Task.store b i g :: ks := by
    rw [← hs']; exact Function.update_self _ _ _
  have htasksne : ∀ t', t' ≠ t → s'.tasks t' = s.tasks t' := by
    intro t' hne; rw [← hs']; exact Function.update_of_ne hne _ _
  have hrefs : ∀ x, s'.refs x = s.refs x := by
    intro x
    have e2 := fieldRefs_set hB { B with fields := B.fields.set i none } x
    have e3 := heldRefs_references t [old] x
    have e4 := count_set_field (new := none) hi (some x)
    rw [← hs']
    unfold Core.refs
    rw [List.count_singleton] at e3
    simp only [heldRefs_add, beq_iff_eq] at e2 e3 e4 ⊢
    have e5 : (if (none : Option Addr) = some x then 1 else 0) = 0 := if_neg (by simp)
    omega
  have hold : ∀ (x : Addr) (X' : Block), s'.heap[x]? = some X' → ∃ X : Block, s.heap[x]? = some X ∧
      (∀ f, some f ∈ X'.fields → some f ∈ X.fields) ∧ X'.count = X.count ∧ X'.status = X.status := by
    intro x X' hX
    rw [hget] at hX
    split at hX
    · rename_i he
      subst he
      cases hX
      refine ⟨B, hB, fun f hf => ?_, rfl, rfl⟩
      rcases mem_set_field hf with hf | hf
      · exact hf
      · cases hf
    · exact ⟨X', hX, fun _ h => h, rfl, rfl⟩
  have hnew : ∀ (x : Addr) (X : Block), s.heap[x]? = some X → ∃ X' : Block, s'.heap[x]? = some X' ∧
      X'.count = X.count ∧ X'.status = X.status := by
    intro x X hX
    by_cases he : x = b
    · subst he
      rw [hB] at hX; cases hX
      exact ⟨{ B with fields := B.fields.set i none }, by rw [hget, if_pos rfl], rfl, rfl⟩
    · exact ⟨X, by rw [hgetne x he]; exact hX, rfl, rfl⟩
  have howner : owner b = none → owner g = none := by
    intro hob
    have hneg : B.count < 0 := by
      by_contra hn
      obtain ⟨t', ht'⟩ := h.owned b B hlive (by omega)
      rw [hob] at ht'; cases ht'
    obtain ⟨G, hG, hGs⟩ := hcareful (hsync.2 hneg)
    rw [isSynchronized_iff] at hGs
    cases hog : owner g with
    | none => rfl
    | some t' =>
      exfalso
      have := h.ownerHeld g t' t hog hheldg
      subst this
      have hGl := live_of_held h hheldg hG
      have := h.private_pos hmem (by simp [Task.isSync]) hGl hog
      omega
  apply h.build htasks
  · refine frame_set h hs'.symm hlive h1 hheld (fun x _ => hrefs x) ?_ ?_ ?_ ?_
    · intro t' x hne hx
      exact Multiset.mem_add.2 (Or.inl hx)
    · intro t' hne hle
      exact hle.trans (Multiset.le_add_right _ _)
    · intro x hx; rfl
    · exact Or.inl rfl
  · intro x hx
    rw [hrefs x] at hx
    obtain ⟨X, hX⟩ := h.target x hx
    obtain ⟨X', hX', _, hs⟩ := hnew x X hX.1
    exact ⟨X', hX', by rw [hs]; exact hX.2⟩
  · intro x X' hX' hc
    obtain ⟨X, hX, _, hc', hs⟩ := hold x X' hX'.1
    rw [hrefs x, hc']
    exact h.counted x X ⟨hX, by rw [← hs]; exact hX'.2⟩ (by rw [← hc']; exact hc)
  · intro x X' hX' hc
    obtain ⟨X, hX, _, hc', hs⟩ := hold x X' hX'.1
    exact h.owned x X ⟨hX, by rw [← hs]; exact hX'.2⟩ (by rw [← hc']; exact hc)
  · intro x t' ho
    obtain ⟨X, hX⟩ := h.ownerLive x t' ho
    obtain ⟨X', hX', _, hs⟩ := hnew x X hX.1
    exact ⟨X', hX', by rw [hs]; exact hX.2⟩
  · intro x t1 t2 ho hx2
    rw [hheld'] at hx2
    rcases Multiset.mem_add.1 hx2 with hx2 | hx2
    · exact h.ownerHeld x t1 t2 ho hx2
    · obtain ⟨e, hx3⟩ := mem_references.1 hx2
      simp only [List.mem_singleton] at e hx3
      rw [e]
      exact h.ownerHeld b t1 _ (h.ownerField x t1 b B ho hB (by rw [hx3]; exact List.mem_of_getElem? hi)) hheld
  · intro x t' a A' ho ha hm
    obtain ⟨A, hA, hf, _⟩ := hold a A' ha
    exact h.ownerField x t' a A ho hA (hf x hm)
  · intro x X' hX' hc
    by_cases he : x = b
    · subst he
      have := hX'.1
      rw [hget, if_pos rfl] at this; cases this
      exact absurd hc hnst
    · have := hX'.1
      rw [hgetne x he] at this
      exact h.statics x X' ⟨this, hX'.2⟩ hc
  · intro x X' hX hs
    by_cases he : x = b
    · subst he
      rw [hget, if_pos rfl] at hX; cases hX
      exact absurd hlive.2 hs
    · rw [hgetne x he] at hX
      exact h.dead x X' hX hs
  · intro x X' t' hX' ho hc
    obtain ⟨X, hX, hf, hc', hs⟩ := hold x X' hX'.1
    have hXl : s.Live x X := ⟨hX, by rw [← hs]; exact hX'.2⟩
    by_cases htt : t' = t
    · subst htt
      have := h.private_pos hmem (by simp [Task.isSync]) hXl ho
      omega
    · rw [htasksne t' htt]
      obtain ⟨m1, m2⟩ := h.marked x X t' hXl ho (by omega)
      refine ⟨m1, fun f hff => (m2 f (hf f hff)).imp ?_ id⟩
      rintro ⟨F, hF, hFc⟩
      obtain ⟨F', hF', hc', _⟩ := hnew f F hF
      exact ⟨F', hF', by omega⟩
  · intro k hk
    rcases List.mem_append.1 hk with hk | hk
    · obtain ⟨f, _, rfl⟩ := List.mem_map.1 hk; trivial
    · rcases List.mem_cons.1 hk with rfl | hk
      · refine ⟨by rw [hrefs]; exact h1, ⟨_, by rw [hget, if_pos rfl], ?_⟩, howner⟩
        simp only
        rw [List.getElem?_set]
        have : i < B.fields.length := by
          rcases Nat.lt_or_ge i B.fields.length with h' | h'
          · exact h'
          · rw [List.getElem?_eq_none h'] at hi; cases hi
        simp [this]
      · refine h.restOk ht (by simp [Task.consumes]) ?_ ?_ k hk
        · intro x X _ hX hd
          obtain ⟨X', hX', _, hs⟩ := hnew x X hX
          exact ⟨X', hX', by rw [hs]; exact hd⟩
        · intro x g X hne _ _ hx1 hX
          simp only [Task.needs, List.mem_cons, not_or] at hne
          exact ⟨by rw [hrefs x]; exact hx1, ⟨X, by rw [hgetne x hne.1]; exact hX, rfl⟩, fun ho hx => ho hx⟩
  · rw [needsOf_append, needsOf_drops, hheld', Multiset.add_comm]
    refine Multiset.add_le_add_right ?_
    have := h.needs t
    rw [ht] at this
    rw [needsOf_cons] at this ⊢
    exact this
  · refine Or.inr (Or.inr (Or.inr fun k hk => ?_))
    rcases List.mem_append.1 hk with hk | hk
    · obtain ⟨f, _, rfl⟩ := List.mem_map.1 hk; trivial
    · rcases List.mem_cons.1 hk with rfl | hk
      · trivial
      · exact shape_consumes (ht ▸ h.shape t) (by simp [Task.consumes]) k hk
  · intro k hk
    rcases List.mem_append.1 (List.mem_of_mem_tail hk) with hk | hk
    · obtain ⟨f, _, rfl⟩ := List.mem_map.1 hk; exact id
    · rcases List.mem_cons.1 hk with rfl | hk
      · exact id
      · exact h.loadedHead t k (by rw [ht]; exact hk)
  · intro x
    have hdrops : ([old].reduceOption.map Task.drop).count (.free x) = 0 := by
      rw [List.count_eq_zero]
      intro hk
      obtain ⟨f, _, hf⟩ := List.mem_map.1 hk
      cases hf
    rw [List.count_append, hdrops, List.count_cons]
    have hle := h.frees t x
    rw [ht, List.count_cons] at hle
    simp at hle ⊢
    exact hle
  · intro x hx
    rcases List.mem_append.1 hx with hk | hk
    · obtain ⟨f, _, hf⟩ := List.mem_map.1 hk; cases hf
    · rcases List.mem_cons.1 hk with hk | hk
      · cases hk
      · left; rw [ht]; exact List.mem_cons_of_mem _ hk
  · intro x X' hX' hd
    obtain ⟨X, hX, _, _, hs⟩ := hold x X' hX'
    obtain ⟨t', ht'⟩ := h.dying x X hX (by rw [← hs]; exact hd)
    by_cases htt : t' = t
    · subst htt
      left
      rw [ht] at ht'
      rcases List.mem_cons.1 ht' with e | e
      · cases e
      · exact List.mem_append.2 (Or.inr (List.mem_cons_of_mem _ e))
    · exact Or.inr ⟨t', htt, ht'⟩

/-- The end of `RecordUpdate` in place. -/
theorem Inv.finishUpdate {s : Core T} {owner : Addr → Option T} (h : Inv s owner) {t : T} {b g : Addr} {i : Nat}
    {B : Block} {ks : List Task} (ht : s.tasks t = .store b i g :: ks) (hB : s.heap[b]? = some B) :
    Inv ⟨s.heap.set b { B with fields := B.fields.set i (some g) }, s.held.erase (t, g), Function.update s.tasks t ks⟩ owner ∧
      s.Live b B ∧ s.refs b = 1 ∧ (t, b) ∈ s.held ∧ g ≠ b ∧ (t, g) ∈ s.held ∧ B.fields[i]? = some none := by
  have hmem : Task.store b i g ∈ s.tasks t := by rw [ht]; exact List.mem_cons_self
  obtain ⟨hheld, hheldg, hgb⟩ := two_needs h ht (b := b) (g := g) rfl
  have hlive := live_of_held h hheld hB
  obtain ⟨h1, ⟨B0, hB0, hi⟩, howner⟩ : s.refs b = 1 ∧ (∃ B : Block, s.heap[b]? = some B ∧ B.fields[i]? = some none) ∧
    (owner b = none → owner g = none) := h.taskOk t _ hmem
  rw [hB] at hB0; cases hB0
  have hgb := hgb h1
  refine ⟨?_, hlive, h1, hheld, hgb, hheldg, hi⟩
  have hst := staticCount_eq
  have hnst : B.count ≠ staticCount := by
    intro hc
    rw [(h.statics b B hlive hc).2] at hi
    cases hi
  obtain ⟨huniq, hnof⟩ := Core.unique_ref h1 hheld
  generalize hs' : (⟨s.heap.set b { B with fields := B.fields.set i (some g) }, s.held.erase (t, g),
    Function.update s.tasks t ks⟩ : Core T) = s'
  have hget : ∀ x, s'.heap[x]? = if x = b then some { B with fields := B.fields.set i (some g) } else s.heap[x]? := by
    intro x; rw [← hs']; exact heap_set hB _ x
  have hgetne : ∀ x, x ≠ b → s'.heap[x]? = s.heap[x]? := by intro x hx; rw [hget, if_neg hx]
  have hheld' : s'.held = s.held.erase (t, g) := by rw [← hs']
  have htasks : s'.tasks t = ks := by rw [← hs']; exact Function.update_self _ _ _
  have htasksne : ∀ t', t' ≠ t → s'.tasks t' = s.tasks t' := by
    intro t' hne; rw [← hs']; exact Function.update_of_ne hne _ _
  have hrefs : ∀ x, s'.refs x = s.refs x := by
    intro x
    have e1 := heldRefs_erase hheldg x
    have e2 := fieldRefs_set hB { B with fields := B.fields.set i (some g) } x
    have e4 := count_set_field (new := some g) hi (some x)
    rw [← hs']
    unfold Core.refs
    simp only [Option.some.injEq] at e1 e2 e4 ⊢
    have e5 : (if (none : Option Addr) = some x then 1 else 0) = 0 := if_neg (by simp)
    omega
  have hold : ∀ (x : Addr) (X' : Block), s'.heap[x]? = some X' → ∃ X : Block, s.heap[x]? = some X ∧
      (∀ f, some f ∈ X'.fields → some f ∈ X.fields ∨ (x = b ∧ f = g)) ∧ X'.count = X.count ∧ X'.status = X.status := by
    intro x X' hX
    rw [hget] at hX
    split at hX
    · rename_i he
      subst he
      cases hX
      refine ⟨B, hB, fun f hf => ?_, rfl, rfl⟩
      rcases mem_set_field hf with hf | hf
      · exact Or.inl hf
      · cases hf; exact Or.inr ⟨rfl, rfl⟩
    · exact ⟨X', hX, fun _ h => Or.inl h, rfl, rfl⟩
  have hnew : ∀ (x : Addr) (X : Block), s.heap[x]? = some X → ∃ X' : Block, s'.heap[x]? = some X' ∧
      X'.count = X.count ∧ X'.status = X.status := by
    intro x X hX
    by_cases he : x = b
    · subst he
      rw [hB] at hX; cases hX
      exact ⟨{ B with fields := B.fields.set i (some g) }, by rw [hget, if_pos rfl], rfl, rfl⟩
    · exact ⟨X, by rw [hgetne x he]; exact hX, rfl, rfl⟩
  apply h.build htasks
  · refine frame_set h hs'.symm hlive h1 hheld (fun x _ => hrefs x) ?_ ?_ ?_ ?_
    · intro t' x hne hx
      exact (Multiset.mem_erase_of_ne (fun e => hne (Prod.mk.inj e).1)).2 hx
    · intro t' hne hle
      exact le_erase_of hle (fun hx => hne (mem_needsOf hx).symm)
    · intro x hx; rfl
    · exact Or.inl rfl
  · intro x hx
    rw [hrefs x] at hx
    obtain ⟨X, hX⟩ := h.target x hx
    obtain ⟨X', hX', _, hs⟩ := hnew x X hX.1
    exact ⟨X', hX', by rw [hs]; exact hX.2⟩
  · intro x X' hX' hc
    obtain ⟨X, hX, _, hc', hs⟩ := hold x X' hX'.1
    rw [hrefs x, hc']
    exact h.counted x X ⟨hX, by rw [← hs]; exact hX'.2⟩ (by rw [← hc']; exact hc)
  · intro x X' hX' hc
    obtain ⟨X, hX, _, hc', hs⟩ := hold x X' hX'.1
    exact h.owned x X ⟨hX, by rw [← hs]; exact hX'.2⟩ (by rw [← hc']; exact hc)
  · intro x t' ho
    obtain ⟨X, hX⟩ := h.ownerLive x t' ho
    obtain ⟨X', hX', _, hs⟩ := hnew x X hX.1
    exact ⟨X', hX', by rw [hs]; exact hX.2⟩
  · intro x t1 t2 ho hx2
    rw [hheld'] at hx2
    exact h.ownerHeld x t1 t2 ho (Multiset.mem_of_mem_erase hx2)
  · intro x t' a A' ho ha hm
    obtain ⟨A, hA, hf, _⟩ := hold a A' ha
    rcases hf x hm with hf | ⟨e1, e2⟩
    · exact h.ownerField x t' a A ho hA hf
    · subst e1 e2
      have := h.ownerHeld x t' t ho hheldg
      subst this
      cases hob : owner a with
      | none => rw [howner hob] at ho; cases ho
      | some t1 => rw [h.ownerHeld a t1 t hob hheld]
  · intro x X' hX' hc
    by_cases he : x = b
    · subst he
      have := hX'.1
      rw [hget, if_pos rfl] at this; cases this
      exact absurd hc hnst
    · have := hX'.1
      rw [hgetne x he] at this
      exact h.statics x X' ⟨this, hX'.2⟩ hc
  · intro x X' hX hs
    by_cases he : x = b
    · subst he
      rw [hget, if_pos rfl] at hX; cases hX
      exact absurd hlive.2 hs
    · rw [hgetne x he] at hX
      exact h.dead x X' hX hs
  · intro x X' t' hX' ho hc
    obtain ⟨X, hX, hf, hc', hs⟩ := hold x X' hX'.1
    have hXl : s.Live x X := ⟨hX, by rw [← hs]; exact hX'.2⟩
    by_cases htt : t' = t
    · subst htt
      have := h.private_pos hmem (by simp [Task.isSync]) hXl ho
      omega
    · rw [htasksne t' htt]
      obtain ⟨m1, m2⟩ := h.marked x X t' hXl ho (by omega)
      have hxb : x ≠ b := by rintro rfl; exact htt (h.ownerHeld x t' t ho hheld).symm
      refine ⟨m1, fun f hff => (m2 f ((hf f hff).resolve_right (fun e => hxb e.1))).imp ?_ id⟩
      rintro ⟨F, hF, hFc⟩
      obtain ⟨F', hF', hc', _⟩ := hnew f F hF
      exact ⟨F', hF', by omega⟩
  · refine h.restOk ht (by simp [Task.consumes]) ?_ ?_
    · intro x X _ hX hd
      obtain ⟨X', hX', _, hs⟩ := hnew x X hX
      exact ⟨X', hX', by rw [hs]; exact hd⟩
    · intro x g X hne _ _ hx1 hX
      simp only [Task.needs, List.mem_cons, not_or] at hne
      exact ⟨by rw [hrefs x]; exact hx1, ⟨X, by rw [hgetne x hne.1]; exact hX, rfl⟩, fun ho hx => ho hx⟩
  · have := h.needs t
    rw [ht, needsOf_cons] at this
    have h2 : (((Task.store b i g).needs.map fun b => (t, b) : List (T × Addr)) : Multiset (T × Addr)) + needsOf t ks =
        (t, g) ::ₘ ((t, b) ::ₘ needsOf t ks) := by
      rw [Multiset.cons_swap]
      simp [Task.needs, ← Multiset.cons_coe]
    rw [h2] at this
    have := Multiset.erase_le_erase (t, g) this
    rw [Multiset.erase_cons_head] at this
    rw [hheld']
    exact (Multiset.le_cons_self _ _).trans this
  · exact Or.inr (Or.inr (Or.inr (shape_consumes (ht ▸ h.shape t) (by simp [Task.consumes]))))
  · intro k hk
    exact h.loadedHead t k (by rw [ht]; exact List.mem_of_mem_tail hk)
  · intro x
    have := h.frees t x
    rw [ht, List.count_cons] at this
    omega
  · intro x hx; left; rw [ht]; exact List.mem_cons_of_mem _ hx
  · intro x X' hX' hd
    obtain ⟨X, hX, _, _, hs⟩ := hold x X' hX'
    obtain ⟨t', ht'⟩ := h.dying x X hX (by rw [← hs]; exact hd)
    by_cases htt : t' = t
    · subst htt
      left
      rw [ht] at ht'
      rcases List.mem_cons.1 ht' with e | e
      · cases e
      · exact e
    · exact Or.inr ⟨t', htt, ht'⟩

/-- Allocation of a block. -/
theorem Inv.allocate {s : Core T} {owner : Addr → Option T} (h : Inv s owner) {t : T} {fs : List (Option Addr)}
    (ht : s.tasks t = []) (hle : references t fs ≤ s.held)
    (hset : ∀ b B, s.Live b B → owner b = some t → 0 ≤ B.count) :
    Inv ⟨s.heap ++ [Block.mk uniqueCount fs .live], (t, s.heap.length) ::ₘ (s.held - references t fs), s.tasks⟩
      (Function.update owner s.heap.length (some t)) ∧ s.refs s.heap.length = 0 ∧ owner s.heap.length = none := by
  have hst := staticCount_eq
  have hnone : s.heap[s.heap.length]? = none := List.getElem?_eq_none (Nat.le_refl _)
  have hr0 : s.refs s.heap.length = 0 := by
    rcases Nat.eq_zero_or_pos (s.refs s.heap.length) with h0 | h0
    · exact h0
    · obtain ⟨B, hB, _⟩ := h.target _ h0
      rw [hnone] at hB; cases hB
  have ho0 : owner s.heap.length = none := by
    cases ho : owner s.heap.length with
    | none => rfl
    | some t' =>
      obtain ⟨B, hB, _⟩ := h.ownerLive _ _ ho
      rw [hnone] at hB; cases hB
  refine ⟨?_, hr0, ho0⟩
  generalize hs' : (⟨s.heap ++ [Block.mk uniqueCount fs .live], (t, s.heap.length) ::ₘ (s.held - references t fs),
    s.tasks⟩ : Core T) = s'
  generalize hal : s.heap.length = al at *
  have hget : ∀ x, s'.heap[x]? = if x = al then some (Block.mk uniqueCount fs .live) else s.heap[x]? := by
    intro x; rw [← hs', ← hal]; exact heap_append _ _ x
  have hgetne : ∀ x, x ≠ al → s'.heap[x]? = s.heap[x]? := by intro x hx; rw [hget, if_neg hx]
  have hheld' : s'.held = (t, al) ::ₘ (s.held - references t fs) := by rw [← hs']
  have htasks : s'.tasks = s.tasks := by rw [← hs']
  have hnh : ∀ t', (t', al) ∉ s.held := by
    intro t' hx
    have := Core.refs_held hx
    omega
  have hnf : ∀ (a : Addr) (A : Block), s.heap[a]? = some A → some al ∉ A.fields := by
    intro a A ha hm
    have := fieldRefs_of_mem ha hm
    unfold Core.refs at hr0
    omega
  have hfs : some al ∉ fs := by
    intro hm
    exact hnh t (Multiset.mem_of_le hle (mem_references.2 ⟨rfl, hm⟩))
  have hrefsall : ∀ x, s'.refs x = s.refs x + if al = x then 1 else 0 := by
    intro x
    have e1 := heldRefs_sub hle x
    have e2 := fieldRefs_append s.heap (Block.mk uniqueCount fs .live) x
    have e3 := heldRefs_references t fs x
    rw [← hs']
    unfold Core.refs
    simp only [heldRefs_cons] at e1 e2 ⊢
    omega
  have hrefs : ∀ x, x ≠ al → s'.refs x = s.refs x := by
    intro x hx
    rw [hrefsall, if_neg (Ne.symm hx)]; rfl
  have hrefsb : s'.refs al = 1 := by rw [hrefsall, if_pos rfl, hr0]
  have hlv : ∀ x X, x ≠ al → (s'.Live x X ↔ s.Live x X) := by
    intro x X hx
    unfold Core.Live; rw [hgetne x hx]
  have hltal : ∀ (x : Addr) (X : Block), s.heap[x]? = some X → x ≠ al := by
    rintro x X hX rfl
    rw [hnone] at hX; cases hX
  have hown : ∀ x, x ≠ al → Function.update owner al (some t) x = owner x := fun x hx => Function.update_of_ne hx _ _
  have hmemh : ∀ t' x, (t', x) ∈ s'.held → (t' = t ∧ x = al) ∨ (t', x) ∈ s.held := by
    intro t' x hx
    rw [hheld'] at hx
    rcases Multiset.mem_cons.1 hx with hx | hx
    · cases hx; exact Or.inl ⟨rfl, rfl⟩
    · exact Or.inr (Multiset.mem_of_le (Multiset.sub_le_self _ _) hx)
  have hother : ∀ t' x, t' ≠ t → (t', x) ∈ s.held → (t', x) ∈ s'.held := by
    intro t' x hne hx
    rw [hheld']
    refine Multiset.mem_cons_of_mem ?_
    rw [Multiset.mem_sub]
    have : (references t fs).count (t', x) = 0 := by
      rw [Multiset.count_eq_zero]
      intro hm
      exact hne (mem_references.1 hm).1
    rw [this]
    exact Multiset.count_pos.2 hx
  apply h.build (t := t) (ks := []) (by rw [htasks]; exact ht)
  · intro t' hne
    refine ⟨by rw [htasks], ?_, ?_, ?_, ?_, ?_, ?_⟩
    · intro x hx
      refine hx.mono (s := s) (s' := s') (fun y hy => hother t' y hne hy) (fun a A _ hA => ?_)
      exact ⟨A, by rw [hgetne a (hltal a A hA)]; exact hA, fun _ h => h⟩
    · intro x c hx hlo X hX
      have : x ≠ al := by
        rintro rfl
        have := hx.refs
        omega
      rw [hgetne x this] at hX
      exact hlo X hX
    · intro x X hX hd _
      exact ⟨X, by rw [hgetne x (hltal x X hX)]; exact hX, hd⟩
    · intro x hx1 hx
      have : x ≠ al := by rintro rfl; exact hnh _ hx
      exact ⟨by rw [hrefs x this]; exact hx1, fun X hX => ⟨X, by rw [hgetne x this]; exact hX, rfl⟩⟩
    · intro x g hx hg ho
      have h1 : x ≠ al := by rintro rfl; exact hnh _ hx
      have h2 : g ≠ al := by rintro rfl; exact hnh _ hg
      rw [hown x h1, hown g h2]; exact ho
    · intro hle'
      rw [hheld']
      refine (le_sub_of hle' ?_).trans (Multiset.le_cons_self _ _)
      rintro ⟨t1, x⟩ hx hx'
      exact hne ((mem_needsOf hx').symm.trans (mem_references.1 hx).1)
  · intro x hx
    by_cases he : x = al
    · exact ⟨Block.mk uniqueCount fs .live, by rw [hget, if_pos he], rfl⟩
    · rw [hrefs x he] at hx
      obtain ⟨X, hX⟩ := h.target x hx
      exact ⟨X, (hlv x X he).2 hX⟩
  · intro x X hX hc
    by_cases he : x = al
    · subst he
      have := hX.1
      rw [hget, if_pos rfl] at this; cases this
      rw [hrefsb]
      simp only [uniqueCount]
      omega
    · rw [hrefs x he]
      exact h.counted x X ((hlv x X he).1 hX) hc
  · intro x X hX hc
    by_cases he : x = al
    · subst he; exact ⟨t, Function.update_self _ _ _⟩
    · rw [hown x he]
      exact h.owned x X ((hlv x X he).1 hX) hc
  · intro x t' ho
    by_cases he : x = al
    · exact ⟨Block.mk uniqueCount fs .live, by rw [hget, if_pos he], rfl⟩
    · rw [hown x he] at ho
      obtain ⟨X, hX⟩ := h.ownerLive x t' ho
      exact ⟨X, (hlv x X he).2 hX⟩
  · intro x t1 t2 ho hx
    rcases hmemh t2 x hx with ⟨rfl, rfl⟩ | hx
    · rw [Function.update_self] at ho; cases ho; rfl
    · have he : x ≠ al := by rintro rfl; exact hnh _ hx
      rw [hown x he] at ho
      exact h.ownerHeld x t1 t2 ho hx
  · intro x t' a A ho ha hm
    by_cases hae : a = al
    · subst hae
      rw [hget, if_pos rfl] at ha; cases ha
      have he : x ≠ a := by rintro rfl; exact hfs hm
      rw [hown x he] at ho
      rw [Function.update_self]
      have := h.ownerHeld x t' t ho (Multiset.mem_of_le hle (mem_references.2 ⟨rfl, hm⟩))
      rw [this]
    · rw [hgetne a hae] at ha
      have he : x ≠ al := by rintro rfl; exact hnf a A ha hm
      rw [hown x he] at ho
      rw [hown a hae]
      exact h.ownerField x t' a A ho ha hm
  · intro x X hX hc
    by_cases he : x = al
    · subst he
      have := hX.1
      rw [hget, if_pos rfl] at this; cases this
      simp only [uniqueCount] at hc; omega
    · rw [hown x he]
      exact h.statics x X ((hlv x X he).1 hX) hc
  · intro x X hX hs
    by_cases he : x = al
    · subst he
      rw [hget, if_pos rfl] at hX; cases hX
      exact absurd rfl hs
    · rw [hgetne x he] at hX
      exact h.dead x X hX hs
  · intro x X t' hX ho hc
    by_cases he : x = al
    · subst he
      have := hX.1
      rw [hget, if_pos rfl] at this; cases this
      simp only [uniqueCount] at hc; omega
    · rw [hown x he] at ho
      have hX := (hlv x X he).1 hX
      rw [htasks]
      obtain ⟨m1, m2⟩ := h.marked x X t' hX ho hc
      refine ⟨m1, fun f hf => (m2 f hf).imp ?_ id⟩
      rintro ⟨F, hF, hFc⟩
      exact ⟨F, by rw [hgetne f (hltal f F hF)]; exact hF, hFc⟩
  · intro k hk; cases hk
  · rw [needsOf_nil]; exact Multiset.zero_le _
  · exact Or.inr (Or.inr (Or.inl (by simp)))
  · simp
  · simp
  · intro x hx; cases hx
  · intro x X hX hd
    have he : x ≠ al := by
      rintro rfl
      rw [hget, if_pos rfl] at hX; cases hX
      cases hd
    rw [hgetne x he] at hX
    obtain ⟨t', ht'⟩ := h.dying x X hX hd
    right
    refine ⟨t', ?_, ht'⟩
    rintro rfl
    rw [ht] at ht'; cases ht'

/-- References to shared blocks that threads without tasks get and lose. -/
theorem Inv.rehold {s : Core T} {owner : Addr → Option T} (h : Inv s owner) {b : Addr} {B : Block}
    (hB : s.Live b B) (ho : owner b = none) {held' : Multiset (T × Addr)}
    (hrefs : ∀ x, x ≠ b → heldRefs held' x = heldRefs s.held x)
    (hb : B.count = staticCount ∨ heldRefs held' b = heldRefs s.held b)
    (hmem : ∀ t' x, (t', x) ∈ held' → (t', x) ∈ s.held ∨ x = b)
    (hother : ∀ t', s.tasks t' ≠ [] → ∀ x, (t', x) ∈ s.held → (t', x) ∈ held')
    (hneeds : ∀ t', needsOf t' (s.tasks t') ≤ s.held → needsOf t' (s.tasks t') ≤ held') :
    Inv ⟨s.heap, held', s.tasks⟩ owner := by
  have hr : ∀ x, x ≠ b → (Core.mk s.heap held' s.tasks).refs x = s.refs x := by
    intro x hx
    unfold Core.refs; simp only; rw [hrefs x hx]
  have hrb : B.count ≠ staticCount → ∀ x, (Core.mk s.heap held' s.tasks).refs x = s.refs x := by
    intro hn x
    by_cases hx : x = b
    · subst hx
      unfold Core.refs; simp only; rw [hb.resolve_left hn]
    · exact hr x hx
  have hrch : ∀ t' x, s.tasks t' ≠ [] → s.Reach t' x → (Core.mk s.heap held' s.tasks).Reach t' x := by
    intro t' x hne hx
    exact hx.mono (s := s) (s' := Core.mk s.heap held' s.tasks) (fun y hy => hother t' hne y hy)
      (fun a A _ hA => ⟨A, hA, fun _ h => h⟩)
  exact {
    target := by
      intro x hx
      by_cases he : x = b
      · subst he; exact ⟨B, hB⟩
      · rw [hr x he] at hx
        exact h.target x hx
    counted := by
      intro x X hX hc
      have : (Core.mk s.heap held' s.tasks).refs x = s.refs x := by
        by_cases he : x = b
        · subst he
          have hX1 := hX.1
          rw [hB.1] at hX1; cases hX1
          exact hrb hc x
        · exact hr x he
      rw [this]
      exact h.counted x X hX hc
    owned := h.owned
    ownerLive := h.ownerLive
    ownerHeld := by
      intro x t1 t2 hox hx
      rcases hmem t2 x hx with hx | rfl
      · exact h.ownerHeld x t1 t2 hox hx
      · rw [ho] at hox; cases hox
    ownerField := h.ownerField
    statics := h.statics
    dead := h.dead
    marked := h.marked
    taskOk := by
      intro t' k hk
      have hne : s.tasks t' ≠ [] := by
        intro e
        simp only at hk
        rw [e] at hk; cases hk
      have hok := h.taskOk t' k hk
      cases k with
      | clone x => exact hrch _ _ hne hok
      | cloneLoaded x c => exact ⟨hrch _ _ hne hok.1, hok.2⟩
      | sync x => exact hrch _ _ hne hok
      | syncLoaded x c => exact ⟨hrch _ _ hne hok.1, hok.2⟩
      | drop x => trivial
      | dropLoaded x c => exact hok
      | free x => exact hok
      | update x i g => trivial
      | store x i g =>
        obtain ⟨h1, ⟨X, hX, hi⟩, ho'⟩ := hok
        refine ⟨?_, ⟨X, hX, hi⟩, ho'⟩
        by_cases he : x = b
        · subst he
          rw [hB.1] at hX; cases hX
          rw [hrb]
          · exact h1
          · intro hc
            rw [(h.statics x B hB hc).2] at hi
            cases hi
        · rw [hr x he]; exact h1
    needs := fun t' => hneeds t' (h.needs t')
    shape := h.shape
    loadedHead := h.loadedHead
    frees := h.frees
    freesOnce := h.freesOnce
    dying := h.dying }

end Verif.Runtime.Graph
