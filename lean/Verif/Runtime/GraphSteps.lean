import Verif.Runtime.GraphCounts

/-
Steps that change blocks: the last `drop`, `free`, `RecordUpdate` in place, allocation; and messages.
-/
namespace Verif.Runtime.Graph

open Verif.Runtime.Arc (isSynchronized staticCount uniqueCount synchronizedUniqueCount cloneAction dropAction
  synchronizeAction isUnique)

variable {T : Type} [DecidableEq T]

theorem live_of_held {s : Core T} {owner : Addr → Option T} (h : Inv s owner) {t : T} {b : Addr} {B : Block}
    (hh : (t, b) ∈ s.held) (hB : s.heap[b]? = some B) : s.Live b B := by
  obtain ⟨B0, hB0⟩ := h.target b (Core.refs_held hh)
  have := hB0.1
  rw [hB] at this; cases this; exact hB0

/-- A block with one reference, held by `t`, is replaced; no other thread sees it. -/
theorem frame_set {s s' : Core T} {owner owner' : Addr → Option T} (h : Inv s owner) {t : T} {b : Addr} {B B' : Block}
    {ks : List Task} {held' : Multiset (T × Addr)}
    (hs' : s' = ⟨s.heap.set b B', held', Function.update s.tasks t ks⟩)
    (hB : s.Live b B) (h1 : s.refs b = 1) (hh : (t, b) ∈ s.held)
    (hrefs : ∀ x, x ≠ b → s'.refs x = s.refs x)
    (hother : ∀ t' x, t' ≠ t → (t', x) ∈ s.held → (t', x) ∈ held')
    (hneeds : ∀ t', t' ≠ t → needsOf t' (s.tasks t') ≤ s.held → needsOf t' (s.tasks t') ≤ held')
    (howner : ∀ x, x ≠ b → owner' x = owner x) (hb : owner' b = owner b ∨ owner' b = none) :
    ∀ t', t' ≠ t → Frame s s' owner owner' t' := by
  intro t' ht
  have hget : ∀ x, x ≠ b → s'.heap[x]? = s.heap[x]? := by
    intro x hx; rw [hs']; simp only; rw [heap_set hB.1, if_neg hx]
  have hne : ∀ x, s.Reach t' x → x ≠ b := by
    rintro x hx rfl
    exact ht (Core.unique_reach h1 hh hx)
  refine ⟨by rw [hs']; exact Function.update_of_ne ht _ _, ?_, ?_, ?_, ?_, ?_, ?_⟩
  · intro x hx
    refine hx.mono (s := s) (s' := s') (fun y hy => ?_) (fun a A ha hA => ?_)
    · rw [hs']; exact hother t' y ht hy
    · exact ⟨A, by rw [hget a (hne a ha)]; exact hA, fun _ h => h⟩
  · intro x c hx hlo X hX
    rw [hget x (hne x hx)] at hX
    exact hlo X hX
  · intro x X hX hd _
    have : x ≠ b := by
      rintro rfl
      rw [hB.1] at hX; cases hX
      rw [hB.2] at hd; cases hd
    exact ⟨X, by rw [hget x this]; exact hX, hd⟩
  · intro x hx1 hx
    have := hne x (.held hx)
    exact ⟨by rw [hrefs x this]; exact hx1, fun X hX => ⟨X, by rw [hget x this]; exact hX, rfl⟩⟩
  · intro x g hx hg ho
    have h1 := hne x (.held hx)
    have h2 := hne g (.held hg)
    rw [howner x h1, howner g h2]; exact ho
  · intro hle; rw [hs']; exact hneeds t' ht hle

/-- The last `drop` of a block. -/
theorem Inv.lastDrop {s : Core T} {owner : Addr → Option T} (h : Inv s owner) {t : T} {b : Addr} {c : Int} {B : Block}
    {ks : List Task} (ht : s.tasks t = .dropLoaded b c :: ks) (hB : s.heap[b]? = some B)
    (hlast : (dropAction c B.count).2 = true) :
    Inv ⟨s.heap.set b { count := (dropAction c B.count).1, fields := [], status := .dying },
      s.held.erase (t, b) + references t B.fields,
      Function.update s.tasks t (B.fields.reduceOption.map Task.drop ++ Task.free b :: ks)⟩
      (Function.update owner b none) ∧ s.Live b B ∧ s.refs b = 1 ∧ (t, b) ∈ s.held := by
  have hmem : Task.dropLoaded b c ∈ s.tasks t := by rw [ht]; exact List.mem_cons_self
  obtain ⟨hheld, hlive, hcases⟩ := h.drop_cases ht hB
  have hst := staticCount_eq
  have h1 : s.refs b = 1 ∧ (dropAction c B.count).1 = 0 := by
    rcases hcases with ⟨_, _, h2⟩ | ⟨_, _, h3, h2⟩ | ⟨_, _, _, h2⟩ | ⟨_, _, _, _, h3, h2⟩ | ⟨_, _, _, _, _, h2⟩
    · rw [h2] at hlast; cases hlast
    · rw [h2]; exact ⟨h3, rfl⟩
    · rw [h2] at hlast; cases hlast
    · rw [h2]; exact ⟨h3, rfl⟩
    · rw [h2] at hlast; cases hlast
  obtain ⟨h1, hzero⟩ := h1
  refine ⟨?_, hlive, h1, hheld⟩
  clear hcases
  rw [hzero]
  obtain ⟨huniq, hnof⟩ := Core.unique_ref h1 hheld
  generalize hs' : (⟨s.heap.set b { count := 0, fields := [], status := .dying },
      s.held.erase (t, b) + references t B.fields,
      Function.update s.tasks t (B.fields.reduceOption.map Task.drop ++ Task.free b :: ks)⟩ : Core T) = s'
  have hget : ∀ x, s'.heap[x]? = if x = b then some { count := 0, fields := [], status := .dying } else s.heap[x]? := by
    intro x; rw [← hs']; exact heap_set hB _ x
  have hgetne : ∀ x, x ≠ b → s'.heap[x]? = s.heap[x]? := by intro x hx; rw [hget, if_neg hx]
  have hheld' : s'.held = s.held.erase (t, b) + references t B.fields := by rw [← hs']
  have htasks : s'.tasks t = B.fields.reduceOption.map Task.drop ++ Task.free b :: ks := by
    rw [← hs']; exact Function.update_self _ _ _
  have htasksne : ∀ t', t' ≠ t → s'.tasks t' = s.tasks t' := by
    intro t' hne; rw [← hs']; exact Function.update_of_ne hne _ _
  have hrefsall : ∀ x, s'.refs x + (if b = x then 1 else 0) = s.refs x := by
    intro x
    have e1 := heldRefs_erase hheld x
    have e2 := fieldRefs_set hB { count := 0, fields := [], status := .dying } x
    have e3 := heldRefs_references t B.fields x
    rw [← hs']
    unfold Core.refs
    simp only [heldRefs_add, List.count_nil] at e1 e2 ⊢
    omega
  have hrefs : ∀ x, x ≠ b → s'.refs x = s.refs x := by
    intro x hx
    have := hrefsall x
    rw [if_neg (Ne.symm hx)] at this
    exact this
  have hrefsb : s'.refs b = 0 := by
    have := hrefsall b
    rw [if_pos rfl] at this
    omega
  have hliveNe : ∀ x X, s'.Live x X → x ≠ b ∧ s.Live x X := by
    intro x X hX
    have hx : x ≠ b := by
      rintro rfl
      have := hX.1
      rw [hget, if_pos rfl] at this; cases this
      exact absurd hX.2 (by simp)
    exact ⟨hx, by rw [← hgetne x hx]; exact hX.1, hX.2⟩
  have hown : ∀ x t', Function.update owner b none x = some t' → x ≠ b ∧ owner x = some t' := by
    intro x t' hx
    by_cases he : x = b
    · subst he; rw [Function.update_self] at hx; cases hx
    · rw [Function.update_of_ne he] at hx; exact ⟨he, hx⟩
  apply h.build htasks
  · refine frame_set h hs'.symm hlive h1 hheld hrefs ?_ ?_ ?_ ?_
    · intro t' x hne hx
      exact Multiset.mem_add.2 (Or.inl ((Multiset.mem_erase_of_ne (fun e => hne (Prod.mk.inj e).1)).2 hx))
    · intro t' hne hle
      exact (le_erase_of hle (fun hx => hne (mem_needsOf hx).symm)).trans (Multiset.le_add_right _ _)
    · intro x hx; exact Function.update_of_ne hx _ _
    · exact Or.inr (Function.update_self _ _ _)
  · intro x hx
    by_cases he : x = b
    · subst he; omega
    · rw [hrefs x he] at hx
      obtain ⟨X, hX⟩ := h.target x hx
      exact ⟨X, by rw [hgetne x he]; exact hX.1, hX.2⟩
  · intro x X hX hc
    obtain ⟨he, hX0⟩ := hliveNe x X hX
    rw [hrefs x he]
    exact h.counted x X hX0 hc
  · intro x X hX hc
    obtain ⟨he, hX0⟩ := hliveNe x X hX
    rw [Function.update_of_ne he]
    exact h.owned x X hX0 hc
  · intro x t' hx
    obtain ⟨he, ho⟩ := hown x t' hx
    obtain ⟨X, hX⟩ := h.ownerLive x t' ho
    exact ⟨X, by rw [hgetne x he]; exact hX.1, hX.2⟩
  · intro x t1 t2 hx hx2
    obtain ⟨he, ho⟩ := hown x t1 hx
    rw [hheld'] at hx2
    rcases Multiset.mem_add.1 hx2 with hx2 | hx2
    · exact h.ownerHeld x t1 t2 ho (Multiset.mem_of_mem_erase hx2)
    · obtain ⟨e, hx3⟩ := mem_references.1 hx2
      simp only at e hx3
      rw [e]
      exact h.ownerHeld b t1 _ (h.ownerField x t1 b B ho hB hx3) hheld
  · intro x t' a A hx ha hm
    obtain ⟨he, ho⟩ := hown x t' hx
    by_cases hab : a = b
    · subst hab
      rw [hget, if_pos rfl] at ha; cases ha
      simp at hm
    · rw [hgetne a hab] at ha
      rw [Function.update_of_ne hab]
      exact h.ownerField x t' a A ho ha hm
  · intro x X hX hc
    obtain ⟨he, hX0⟩ := hliveNe x X hX
    rw [Function.update_of_ne he]
    exact h.statics x X hX0 hc
  · intro x X hX hs
    by_cases he : x = b
    · subst he
      rw [hget, if_pos rfl] at hX; cases hX
      exact ⟨rfl, by simp only; omega⟩
    · rw [hgetne x he] at hX
      exact h.dead x X hX hs
  · intro x X t' hX ho hc
    obtain ⟨he, hX0⟩ := hliveNe x X hX
    obtain ⟨_, ho⟩ := hown x t' ho
    by_cases htt : t' = t
    · subst htt
      have := h.private_pos hmem (by simp [Task.isSync]) hX0 ho
      omega
    · rw [htasksne t' htt]
      obtain ⟨m1, m2⟩ := h.marked x X t' hX0 ho hc
      refine ⟨m1, fun f hf => (m2 f hf).imp ?_ id⟩
      rintro ⟨F, hF, hFc⟩
      have hfb : f ≠ b := by
        rintro rfl
        exact hnof x X hX0.1 hf
      exact ⟨F, by rw [hgetne f hfb]; exact hF, hFc⟩
  · intro k hk
    rcases List.mem_append.1 hk with hk | hk
    · obtain ⟨f, _, rfl⟩ := List.mem_map.1 hk; trivial
    · rcases List.mem_cons.1 hk with rfl | hk
      · exact ⟨_, by rw [hget, if_pos rfl], rfl⟩
      · refine h.restOk ht (by simp [Task.consumes]) ?_ ?_ k hk
        · intro x X _ hX hd
          have hne : x ≠ b := by
            rintro rfl
            rw [hB] at hX; cases hX
            rw [hlive.2] at hd; cases hd
          exact ⟨X, by rw [hgetne x hne]; exact hX, hd⟩
        · intro x g X hne _ _ hx1 hX
          simp only [Task.needs, List.mem_singleton] at hne
          refine ⟨by rw [hrefs x hne]; exact hx1, ⟨X, by rw [hgetne x hne]; exact hX, rfl⟩, fun ho hx => ?_⟩
          rw [Function.update_of_ne hne] at hx
          by_cases hg : g = b
          · rw [hg, Function.update_self]
          · rw [Function.update_of_ne hg]; exact ho hx
  · rw [needsOf_append, needsOf_drops, needsOf_cons, hheld', Multiset.add_comm]
    simp only [Task.needs, List.map_nil, Multiset.coe_nil, Multiset.zero_add]
    exact Multiset.add_le_add_right (needs_tail h ht rfl)
  · refine Or.inr (Or.inr (Or.inr fun k hk => ?_))
    rcases List.mem_append.1 hk with hk | hk
    · obtain ⟨f, _, rfl⟩ := List.mem_map.1 hk; trivial
    · rcases List.mem_cons.1 hk with rfl | hk
      · trivial
      · exact shape_consumes (ht ▸ h.shape t) (by simp [Task.consumes]) k hk
  · intro k hk
    rcases List.mem_append.1 (List.mem_of_mem_tail hk) with hk | hk
    · obtain ⟨f, _, rfl⟩ := List.mem_map.1 hk; exact id
    · rcases List.mem_cons.1 hk with rfl | hk
      · exact id
      · exact h.loadedHead t k (by rw [ht]; exact hk)
  · intro x
    have hdrops : (B.fields.reduceOption.map Task.drop).count (.free x) = 0 := by
      rw [List.count_eq_zero]
      intro hk
      obtain ⟨f, _, hf⟩ := List.mem_map.1 hk
      cases hf
    rw [List.count_append, hdrops, List.count_cons]
    have hle := h.frees t x
    rw [ht, List.count_cons] at hle
    by_cases hx : x = b
    · subst hx
      have : ks.count (.free x) = 0 := by
        rw [List.count_eq_zero]
        intro hk
        obtain ⟨X, hX, hd⟩ : ∃ X : Block, s.heap[x]? = some X ∧ X.status = .dying :=
          h.taskOk t (.free x) (by rw [ht]; exact List.mem_cons_of_mem _ hk)
        rw [hB] at hX; cases hX
        rw [hlive.2] at hd; cases hd
      simp [this]
    · have : (Task.free b == Task.free x) = false := by
        rw [beq_eq_false_iff_ne]; intro e; cases e; exact hx rfl
      simp only [this]
      simp at hle ⊢
      omega
  · intro x hx
    rcases List.mem_append.1 hx with hk | hk
    · obtain ⟨f, _, hf⟩ := List.mem_map.1 hk; cases hf
    · rcases List.mem_cons.1 hk with hk | hk
      · cases hk
        right
        intro t' _ hx
        obtain ⟨X, hX, hd⟩ : ∃ X : Block, s.heap[b]? = some X ∧ X.status = .dying := h.taskOk t' (.free b) hx
        rw [hB] at hX; cases hX
        rw [hlive.2] at hd; cases hd
      · left; rw [ht]; exact List.mem_cons_of_mem _ hk
  · intro x X hX hd
    by_cases he : x = b
    · subst he; left; simp
    · rw [hgetne x he] at hX
      obtain ⟨t', ht'⟩ := h.dying x X hX hd
      by_cases htt : t' = t
      · subst htt
        left
        rw [ht] at ht'
        rcases List.mem_cons.1 ht' with e | e
        · cases e
        · exact List.mem_append.2 (Or.inr (List.mem_cons_of_mem _ e))
      · exact Or.inr ⟨t', htt, ht'⟩

/-- `free` -/
theorem Inv.free {s : Core T} {owner : Addr → Option T} (h : Inv s owner) {t : T} {b : Addr} {B : Block}
    {ks : List Task} (ht : s.tasks t = .free b :: ks) (hB : s.heap[b]? = some B) :
    Inv ⟨s.heap.set b { B with status := .freed }, s.held, Function.update s.tasks t ks⟩ owner ∧ B.status = .dying := by
  have hmem : Task.free b ∈ s.tasks t := by rw [ht]; exact List.mem_cons_self
  obtain ⟨B0, hB0, hd⟩ : ∃ X : Block, s.heap[b]? = some X ∧ X.status = .dying := h.taskOk t _ hmem
  rw [hB] at hB0; cases hB0
  refine ⟨?_, hd⟩
  have hdead := h.dead b B hB (by rw [hd]; simp)
  have hb0 : ∀ X, ¬ s.Live b X := by
    intro X hX
    have := hX.1
    rw [hB] at this; cases this
    have := hX.2
    rw [hd] at this; cases this
  generalize hs' : (⟨s.heap.set b { B with status := .freed }, s.held, Function.update s.tasks t ks⟩ : Core T) = s'
  have hget : ∀ x, s'.heap[x]? = if x = b then some { B with status := .freed } else s.heap[x]? := by
    intro x; rw [← hs']; exact heap_set hB _ x
  have hgetne : ∀ x, x ≠ b → s'.heap[x]? = s.heap[x]? := by intro x hx; rw [hget, if_neg hx]
  have hheld' : s'.held = s.held := by rw [← hs']
  have htasks : s'.tasks t = ks := by rw [← hs']; exact Function.update_self _ _ _
  have htasksne : ∀ t', t' ≠ t → s'.tasks t' = s.tasks t' := by
    intro t' hne; rw [← hs']; exact Function.update_of_ne hne _ _
  have hrefs : ∀ x, s'.refs x = s.refs x := by
    intro x
    have e2 := fieldRefs_set hB { B with status := .freed } x
    rw [← hs']
    unfold Core.refs
    simp only at e2 ⊢
    omega
  have hlv : ∀ x X, s'.Live x X ↔ s.Live x X := by
    intro x X
    by_cases he : x = b
    · subst he
      constructor
      · intro hX
        have := hX.1
        rw [hget, if_pos rfl] at this; cases this
        exact absurd hX.2 (by simp)
      · intro hX; exact absurd hX (hb0 X)
    · unfold Core.Live; rw [hgetne x he]
  have hold : ∀ (x : Addr) (X' : Block), s'.heap[x]? = some X' → ∃ X : Block, s.heap[x]? = some X ∧ X'.fields = X.fields ∧
      X'.count = X.count := by
    intro x X' hX
    rw [hget] at hX
    split at hX
    · rename_i he
      subst he
      cases hX
      exact ⟨B, hB, rfl, rfl⟩
    · exact ⟨X', hX, rfl, rfl⟩
  have hnew : ∀ (x : Addr) (X : Block), s.heap[x]? = some X → ∃ X' : Block, s'.heap[x]? = some X' ∧ X'.fields = X.fields ∧
      X'.count = X.count := by
    intro x X hX
    by_cases he : x = b
    · subst he
      rw [hB] at hX; cases hX
      exact ⟨{ B with status := .freed }, by rw [hget, if_pos rfl], rfl, rfl⟩
    · exact ⟨X, by rw [hgetne x he]; exact hX, rfl, rfl⟩
  have hnk : Task.free b ∉ ks := by
    intro hk
    have hle := h.frees t b
    rw [ht, List.count_cons] at hle
    have := List.count_pos_iff.2 hk
    simp at hle
    omega
  apply h.build htasks
  · intro t' hne
    refine ⟨htasksne t' hne, ?_, ?_, ?_, ?_, fun _ _ _ _ h => h, ?_⟩
    · intro x hx
      refine hx.mono (s := s) (s' := s') (fun y hy => by rw [hheld']; exact hy) (fun a A _ ha => ?_)
      obtain ⟨A', hA', hf, _⟩ := hnew a A ha
      exact ⟨A', hA', by rw [hf]; exact fun _ h => h⟩
    · intro x c hx hlo X' hX'
      obtain ⟨X, hX, _, hc⟩ := hold x X' hX'
      rw [hc]; exact hlo X hX
    · intro x X hX hdx hfx
      have he : x ≠ b := by
        rintro rfl
        exact hne (h.freesOnce t' t x hfx hmem)
      exact ⟨X, by rw [hgetne x he]; exact hX, hdx⟩
    · intro x h1 _
      refine ⟨by rw [hrefs]; exact h1, fun X hX => ?_⟩
      obtain ⟨X', hX', hf, _⟩ := hnew x X hX
      exact ⟨X', hX', hf⟩
    · intro hle; rw [hheld']; exact hle
  · intro x hx
    rw [hrefs] at hx
    obtain ⟨X, hX⟩ := h.target x hx
    exact ⟨X, (hlv x X).2 hX⟩
  · intro x X hX hc
    rw [hrefs]; exact h.counted x X ((hlv x X).1 hX) hc
  · intro x X hX hc; exact h.owned x X ((hlv x X).1 hX) hc
  · intro x t' hx
    obtain ⟨X, hX⟩ := h.ownerLive x t' hx
    exact ⟨X, (hlv x X).2 hX⟩
  · intro x t1 t2 hx hx2; rw [hheld'] at hx2; exact h.ownerHeld x t1 t2 hx hx2
  · intro x t' a A' hx ha hm
    obtain ⟨A, hA, hf, _⟩ := hold a A' ha
    exact h.ownerField x t' a A hx hA (by rw [← hf]; exact hm)
  · intro x X hX hc; exact h.statics x X ((hlv x X).1 hX) hc
  · intro x X' hX' hs
    by_cases he : x = b
    · subst he
      rw [hget, if_pos rfl] at hX'; cases hX'
      exact hdead
    · rw [hgetne x he] at hX'
      exact h.dead x X' hX' hs
  · intro x X t' hX ho hc
    have hX := (hlv x X).1 hX
    obtain ⟨m1, m2⟩ := h.marked x X t' hX ho hc
    by_cases htt : t' = t
    · subst htt
      exact absurd (m1 _ hmem) id
    · rw [htasksne t' htt]
      refine ⟨m1, fun f hf => (m2 f hf).imp ?_ id⟩
      rintro ⟨F, hF, hFc⟩
      obtain ⟨F', hF', _, hc'⟩ := hnew f F hF
      exact ⟨F', hF', by rw [hc']; exact hFc⟩
  · refine h.restOk ht (by simp [Task.consumes]) ?_ ?_
    · intro x X hk hX hdx
      have he : x ≠ b := by rintro rfl; exact hnk hk
      exact ⟨X, by rw [hgetne x he]; exact hX, hdx⟩
    · intro x g X _ _ _ hx1 hX
      obtain ⟨X', hX', hf, _⟩ := hnew x X hX
      exact ⟨by rw [hrefs]; exact hx1, ⟨X', hX', hf⟩, fun ho => ho⟩
  · have := h.needs t
    rw [ht, needsOf_cons] at this
    rw [hheld']
    refine le_trans ?_ this
    exact Multiset.le_add_left _ _
  · exact Or.inr (Or.inr (Or.inr (shape_consumes (ht ▸ h.shape t) (by simp [Task.consumes]))))
  · intro k hk
    exact h.loadedHead t k (by rw [ht]; exact List.mem_of_mem_tail hk)
  · intro x
    have := h.frees t x
    rw [ht, List.count_cons] at this
    omega
  · intro x hx; left; rw [ht]; exact List.mem_cons_of_mem _ hx
  · intro x X hX hdx
    have he : x ≠ b := by
      rintro rfl
      rw [hget, if_pos rfl] at hX; cases hX
      cases hdx
    rw [hgetne x he] at hX
    obtain ⟨t', ht'⟩ := h.dying x X hX hdx
    by_cases htt : t' = t
    · subst htt
      left
      rw [ht] at ht'
      rcases List.mem_cons.1 ht' with e | e
      · cases e; exact absurd rfl he
      · exact e
    · exact Or.inr ⟨t', htt, ht'⟩

end Verif.Runtime.Graph
