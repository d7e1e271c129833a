import Verif.Runtime.GraphKnow

/-
Every step keeps the invariant.
-/
namespace Verif.Runtime.Graph

open Verif.Runtime.Arc (isSynchronized staticCount uniqueCount synchronizedUniqueCount cloneAction dropAction
  synchronizeAction isUnique)

variable {T : Type} [DecidableEq T]

/-! ### Tools -/

theorem Covered.transfer {s s' : State T} {owner owner' : Addr → Option T} {i : Nat} {P : Addr → Prop}
    (hview : ∀ x, P x → i ∈ s.view x → Covered s' owner' i x)
    (hheld : ∀ x t, P x → (t, x) ∈ s.held → i ∈ s.know t → Covered s' owner' i x)
    (howned : ∀ (a : Addr) (A : Block) (x : Addr) (t : T), P x → s.heap[a]? = some A → some x ∈ A.fields →
      owner a = some t → i ∈ s.know t → Covered s' owner' i x)
    (hfield : ∀ (a : Addr) (A : Block) (x : Addr), P x → s.heap[a]? = some A → some x ∈ A.fields → owner a = none →
      Covered s owner i a → (P a → Covered s' owner' i a) → Covered s' owner' i x)
    {x : Addr} (h : Covered s owner i x) (hx : P x) : Covered s' owner' i x := by
  induction h with
  | view h => exact hview _ hx h
  | held h h' => exact hheld _ _ hx h h'
  | owned h1 h2 h3 h4 => exact howned _ _ _ _ hx h1 h2 h3 h4
  | field h1 h2 h3 h4 ih => exact hfield _ _ _ hx h1 h2 h3 h4 ih

theorem Core.Reach.sub {s s' : Core T} {t : T} (hh : ∀ x, (t, x) ∈ s'.held → s.Reach t x)
    (hf : ∀ (a : Addr) (A' : Block) (x : Addr), s.Reach t a → s'.heap[a]? = some A' → some x ∈ A'.fields → s.Reach t x)
    {x : Addr} (h : s'.Reach t x) : s.Reach t x := by
  induction h with
  | held h => exact hh _ h
  | field _ ha hb ih => exact hf _ _ _ ih ha hb

theorem Acyclic.sub {heap heap' : List Block} (h : Acyclic heap)
    (hs : ∀ (a b : Addr) (A' : Block), heap'[a]? = some A' → some b ∈ A'.fields →
      ∃ A : Block, heap[a]? = some A ∧ some b ∈ A.fields) : Acyclic heap' := by
  obtain ⟨rank, hr⟩ := h
  refine ⟨rank, fun a b A' ha hb => ?_⟩
  obtain ⟨A, hA, hm⟩ := hs a b A' ha hb
  exact hr a b A hA hm

/-- Induction from blocks that no block refers to. -/
theorem Acyclic.induction {heap : List Block} (h : Acyclic heap) {P : Addr → Prop}
    (step : ∀ b, (∀ (a : Addr) (A : Block), heap[a]? = some A → some b ∈ A.fields → P a) → P b) : ∀ b, P b := by
  obtain ⟨rank, hr⟩ := h
  have hM : ∀ n, ∃ M, ∀ a, a < n → rank a ≤ M := by
    intro n
    induction n with
    | zero => exact ⟨0, fun a ha => absurd ha (Nat.not_lt_zero _)⟩
    | succ n ih =>
      obtain ⟨M, hM⟩ := ih
      refine ⟨max M (rank n), fun a ha => ?_⟩
      rcases Nat.lt_or_ge a n with h | h
      · exact Nat.le_trans (hM a h) (Nat.le_max_left _ _)
      · have : a = n := Nat.le_antisymm (Nat.le_of_lt_succ ha) h
        rw [this]; exact Nat.le_max_right _ _
  obtain ⟨M, hM⟩ := hM heap.length
  have key : ∀ d b, M + 1 - rank b ≤ d → P b := by
    intro d
    induction d with
    | zero =>
      intro b hb
      apply step
      intro a A ha hm
      have h1 := hr a b A ha hm
      have h2 := hM a (by
        rcases Nat.lt_or_ge a heap.length with h | h
        · exact h
        · rw [List.getElem?_eq_none h] at ha; cases ha)
      omega
    | succ d ih =>
      intro b hb
      apply step
      intro a A ha hm
      apply ih
      have h1 := hr a b A ha hm
      have h2 := hM a (by
        rcases Nat.lt_or_ge a heap.length with h | h
        · exact h
        · rw [List.getElem?_eq_none h] at ha; cases ha)
      omega
  exact fun b => key _ b (Nat.le_refl _)

theorem parent_live {s : Core T} {owner : Addr → Option T} (h : Inv s owner) {a b : Addr} {A : Block}
    (ha : s.heap[a]? = some A) (hb : some b ∈ A.fields) : s.Live a A ∧ A.count ≠ staticCount := by
  have hl : A.status = .live := by
    by_contra hn
    rw [(h.dead a A ha hn).1] at hb; cases hb
  refine ⟨⟨ha, hl⟩, fun hc => ?_⟩
  rw [(h.statics a A ⟨ha, hl⟩ hc).2] at hb; cases hb

/-- Synchronized blocks of a thread without tasks become shared. -/
theorem Ok.settle {s : State T} {owner : Addr → Option T} (h : Ok s owner) {t : T} (ht : s.tasks t = []) :
    ∃ owner', Ok s owner' ∧ (∀ b B, s.core.Live b B → owner' b = some t → 0 ≤ B.count) := by
  obtain ⟨owner', hinv, hset, hrel⟩ := h.inv.settle (t := t) ht
  refine ⟨owner', ?_, hset⟩
  have hsome : ∀ b t', owner' b = some t' → owner b = some t' := by
    intro b t' hb
    rcases hrel b with h1 | ⟨_, h1⟩
    · rw [← h1]; exact hb
    · rw [h1] at hb; cases hb
  -- what the thread knows covers what it shares now
  have hnew : ∀ i, i ∈ s.know t → ∀ b, owner b = some t → owner' b = none → Covered s owner' i b := by
    intro i hi
    refine h.acyclic.induction fun b ih hb hb' => ?_
    obtain ⟨B, hB⟩ := h.inv.ownerLive b t hb
    have hpos : 0 < s.core.refs b := by
      by_cases hc : B.count = staticCount
      · rw [(h.inv.statics b B hB hc).1] at hb; cases hb
      · exact (h.inv.counted b B hB hc).1
    unfold Core.refs at hpos
    rcases Nat.eq_zero_or_pos (heldRefs s.core.held b) with h0 | h0
    · obtain ⟨a, A, ha, hm⟩ := fieldRefs_pos (heap := s.core.heap) (b := b) (by omega)
      have hoa := h.inv.ownerField b t a A hb ha hm
      rcases hrel a with h1 | ⟨_, h1⟩
      · exact .owned ha hm (h1.trans hoa) hi
      · exact .field ha hm h1 (ih a A ha hm hoa h1)
    · obtain ⟨t', ht'⟩ := exists_held h0
      have := h.inv.ownerHeld b t t' hb ht'
      subst this
      exact .held ht' hi
  refine h.change rfl (fun _ => rfl) rfl rfl (Nat.le_refl _) hinv h.acyclic (fun b t' ho => Or.inl (hsome b t' ho))
    (fun _ _ hr => Or.inl hr) ?_ (fun _ _ h => Or.inl h) (fun _ _ _ _ h => Or.inl h) (fun b B hB hc => ⟨B, hB, hc⟩)
  intro b B hB ho hc i hi
  have hmono : Covered s owner i b → owner b = none → Covered s owner' i b := by
    intro hcv hob
    refine Covered.transfer (P := fun x => owner x = none) (s := s) (owner := owner) (fun x _ h => .view h) (fun x t' _ h1 h2 => .held h1 h2) ?_ ?_ hcv hob
    · intro a A x t' _ h1 h2 h3 h4
      rcases hrel a with h5 | ⟨h5, h6⟩
      · exact .owned h1 h2 (h5.trans h3) h4
      · rw [h3] at h5; cases h5
        exact .field h1 h2 h6 (hnew i h4 a h3 h6)
    · intro a A x _ h1 h2 h3 _ ih
      refine .field h1 h2 ?_ (ih h3)
      rcases hrel a with h5 | ⟨h5, h6⟩
      · exact h5.trans h3
      · exact h6
  cases hob : owner b with
  | none => exact hmono (h.know.shared b B hB hob hc i hi) hob
  | some t' =>
    rcases hrel b with h1 | ⟨h1, _⟩
    · rw [ho, hob] at h1; cases h1
    · rw [hob] at h1; cases h1
      exact hnew i (h.know.owned b t hob hi) b hob ho

/-! ### The program -/

/-- A thread without tasks gets one. -/
theorem Ok.start {s : State T} {owner : Addr → Option T} (h : Ok s owner) {t : T} (ht : s.tasks t = [])
    (hset : ∀ b B, s.core.Live b B → owner b = some t → 0 ≤ B.count) {k : Task} (hk : TaskOk s.core owner t k)
    (hn : needsOf t [k] ≤ s.held) (hs : Shape [k]) (hf : ∀ b, k ≠ .free b) (hst : ∀ b j g, k ≠ .store b j g) :
    Ok (s.setTasks t [k]) owner := by
  refine h.setTasks ?_ ?_ ?_
  · refine h.inv.setTasks t [k] ?_ ?_ hn hs (by simp) ?_
    · intro b B hB ho hc
      have := hset b B hB ho
      omega
    · intro k' hk'
      rw [List.mem_singleton] at hk'
      subst hk'; exact hk
    · intro b
      have h1 : s.core.tasks t = [] := ht
      rw [h1, List.count_cons]
      have : (k == Task.free b) = false := by rw [beq_eq_false_iff_ne]; exact hf b
      simp [this]
  · intro b hb
    rw [List.mem_singleton] at hb
    exact absurd hb.symm (hf b)
  · intro b j g hb
    rw [List.mem_singleton] at hb
    exact absurd hb.symm (hst b j g)

theorem Ok.staticRef {s : State T} {owner : Addr → Option T} (h : Ok s owner) {t : T} {b : Addr} {B : Block}
    (hB : s.heap[b]? = some B) (hc : B.count = staticCount) : Ok { s with held := (t, b) ::ₘ s.held } owner := by
  have hl : s.core.Live b B := by
    refine ⟨hB, ?_⟩
    by_contra hn
    exact (h.inv.dead b B hB hn).2 hc
  obtain ⟨ho, hf⟩ := h.inv.statics b B hl hc
  refine h.change rfl (fun _ => rfl) rfl rfl (Nat.le_refl _) ?_ h.acyclic (fun _ _ h => Or.inl h)
    ?_ ?_ (fun _ _ h => Or.inl h) (fun _ _ _ _ h => Or.inl h) (fun b B hB hc => ⟨B, hB, hc⟩)
  · refine h.inv.rehold hl ho (held' := (t, b) ::ₘ s.held) ?_ (Or.inl hc) ?_ ?_ ?_
    · intro x hx
      rw [heldRefs_cons, if_neg (Ne.symm hx)]; rfl
    · intro t' x hx
      rcases Multiset.mem_cons.1 hx with hx | hx
      · cases hx; exact Or.inr rfl
      · exact Or.inl hx
    · intro t' _ x hx; exact Multiset.mem_cons_of_mem hx
    · intro t' hle; exact hle.trans (Multiset.le_cons_self _ _)
  · intro t' x hr
    have : s.core.Reach t' x ∨ x = b := by
      induction hr with
      | held hh =>
        rcases Multiset.mem_cons.1 hh with hx | hx
        · cases hx; exact Or.inr rfl
        · exact Or.inl (.held hx)
      | @field a x A _ ha hm ih =>
        rcases ih with ih | ih
        · exact Or.inl (.field ih ha hm)
        · subst ih
          have ha : s.heap[a]? = some A := ha
          rw [hB] at ha; cases ha
          rw [hf] at hm; cases hm
    rcases this with h1 | rfl
    · exact Or.inl h1
    · right
      rw [h.know.statics x B hB hc]
      exact Set.empty_subset _
  · intro x X hX ho' hc' i hi
    refine Covered.transfer (P := fun _ => True) (s := s) (owner := owner) ?_ ?_ ?_ ?_
      (h.know.shared x X hX ho' hc' i hi) trivial
    · intro x _ h; exact .view h
    · intro x t' _ h1 h2; exact .held (Multiset.mem_cons_of_mem h1) h2
    · intro a A x t' _ h1 h2 h3 h4; exact .owned h1 h2 h3 h4
    · intro a A x _ h1 h2 h3 _ ih; exact .field h1 h2 h3 (ih trivial)

theorem Ok.send {s : State T} {owner : Addr → Option T} (h : Ok s owner) {t t' : T} {b : Addr} {B : Block}
    (ht : s.tasks t = []) (ht' : s.tasks t' = [])
    (hset : ∀ b B, s.core.Live b B → owner b = some t → 0 ≤ B.count) (hh : (t, b) ∈ s.held)
    (hB : s.heap[b]? = some B) (hc : isSynchronized B.count = true) :
    Ok ({ s with held := (t', b) ::ₘ s.held.erase (t, b) }.learn t' (s.know t)) owner := by
  rw [isSynchronized_iff] at hc
  have hl : s.core.Live b B := live_of_held h.inv hh hB
  have ho : owner b = none := by
    cases ho : owner b with
    | none => rfl
    | some t1 =>
      have := h.inv.ownerHeld b t1 t ho hh
      subst this
      have := hset b B hl ho
      omega
  have h := h.learn t' (s.know t)
  have hknow : s.know t ⊆ (s.learn t' (s.know t)).know t' := by
    intro i hi
    simp only [State.learn, Function.update_self]
    exact Or.inr hi
  have hknowt : ∀ i, i ∈ (s.learn t' (s.know t)).know t → i ∈ (s.learn t' (s.know t)).know t' := by
    intro i hi
    by_cases he : t = t'
    · rw [← he]; rw [← he] at hi; exact hi
    · have : (s.learn t' (s.know t)).know t = s.know t := by simp only [State.learn]; exact Function.update_of_ne he _ _
      rw [this] at hi; exact hknow hi
  generalize hs1 : s.learn t' (s.know t) = s1 at *
  have e : ({ s with held := (t', b) ::ₘ s.held.erase (t, b) }.learn t' (s.know t)) =
      { s1 with held := (t', b) ::ₘ s1.held.erase (t, b) } := by rw [← hs1]; rfl
  have hh : (t, b) ∈ s1.held := by rw [← hs1]; exact hh
  have hB : s1.heap[b]? = some B := by rw [← hs1]; exact hB
  have hl : s1.core.Live b B := by rw [← hs1]; exact hl
  have ht : s1.tasks t = [] := by rw [← hs1]; exact ht
  rw [e]
  refine h.change rfl (fun _ => rfl) rfl rfl (Nat.le_refl _) ?_ h.acyclic (fun _ _ h => Or.inl h)
    ?_ ?_ (fun _ _ h => Or.inl h) (fun _ _ _ _ h => Or.inl h) (fun b B hB hc => ⟨B, hB, hc⟩)
  · refine h.inv.rehold hl ho (held' := (t', b) ::ₘ s1.held.erase (t, b)) ?_ (Or.inr ?_) ?_ ?_ ?_
    · intro x hx
      have := heldRefs_erase hh x
      rw [if_neg (Ne.symm hx)] at this
      rw [heldRefs_cons, if_neg (Ne.symm hx)]
      exact this
    · have := heldRefs_erase hh b
      rw [heldRefs_cons]
      exact this
    · intro t2 x hx
      rcases Multiset.mem_cons.1 hx with hx | hx
      · cases hx; exact Or.inr rfl
      · exact Or.inl (Multiset.mem_of_mem_erase hx)
    · intro t2 hne x hx
      refine Multiset.mem_cons_of_mem ((Multiset.mem_erase_of_ne ?_).2 hx)
      intro e2
      cases e2
      exact hne ht
    · intro t2 hle
      by_cases he : t2 = t
      · subst he
        have : s1.core.tasks t2 = [] := ht
        rw [this, needsOf_nil]; exact Multiset.zero_le _
      · exact (le_erase_of hle (fun hx => he (mem_needsOf hx).symm)).trans (Multiset.le_cons_self _ _)
  · intro t2 x hr
    have : s1.core.Reach t2 x ∨ (t2 = t' ∧ s1.core.Reach t x) := by
      induction hr with
      | held hx =>
        rcases Multiset.mem_cons.1 hx with hx | hx
        · cases hx; exact Or.inr ⟨rfl, .held hh⟩
        · exact Or.inl (.held (Multiset.mem_of_mem_erase hx))
      | field _ ha hm ih =>
        rcases ih with ih | ⟨e2, ih⟩
        · exact Or.inl (.field ih ha hm)
        · exact Or.inr ⟨e2, .field ih ha hm⟩
    rcases this with h1 | ⟨rfl, h1⟩
    · exact Or.inl h1
    · right
      intro i hi
      exact hknowt i (h.know.reach t x h1 hi)
  · intro x X hX ho' hc' i hi
    refine Covered.transfer (P := fun _ => True) (s := s1) (owner := owner) ?_ ?_ ?_ ?_
      (h.know.shared x X hX ho' hc' i hi) trivial
    · intro x _ h; exact .view h
    · intro y t2 _ h1 h2
      by_cases he : (t2, y) = (t, b)
      · cases he
        exact .held (Multiset.mem_cons_self _ _) (hknowt i h2)
      · exact .held (Multiset.mem_cons_of_mem ((Multiset.mem_erase_of_ne he).2 h1)) h2
    · intro a A x t' _ h1 h2 h3 h4; exact .owned h1 h2 h3 h4
    · intro a A x _ h1 h2 h3 _ ih; exact .field h1 h2 h3 (ih trivial)

theorem Ok.allocate {s : State T} {owner : Addr → Option T} (h : Ok s owner) {t : T} {fs : List (Option Addr)}
    (ht : s.tasks t = []) (hset : ∀ b B, s.core.Live b B → owner b = some t → 0 ≤ B.count)
    (hle : references t fs ≤ s.held) : ∃ owner', Ok (s.allocate t fs) owner' := by
  obtain ⟨hinv, hr0, ho0⟩ := h.inv.allocate (t := t) (fs := fs) ht hle hset
  have hnone : s.heap[s.heap.length]? = none := List.getElem?_eq_none (Nat.le_refl _)
  have hev : ∀ (i : Nat) (l : Location) (k : Kind), s.log[i]? ≠ some (s.heap.length, l, k) := by
    intro i l k hi
    exact Nat.lt_irrefl _ (h.know.bound i _ l k hi)
  have hnh : ∀ t', (t', s.heap.length) ∉ s.held := by
    intro t' hx
    have hx : (t', s.heap.length) ∈ s.core.held := hx
    have hx := Core.refs_held hx
    have hr0 : s.core.refs s.heap.length = 0 := hr0
    omega
  have hnf : ∀ (a : Addr) (A : Block), s.heap[a]? = some A → some s.heap.length ∉ A.fields := by
    intro a A ha hm
    have := fieldRefs_of_mem ha hm
    have hr0 : s.core.refs s.heap.length = 0 := hr0
    unfold Core.refs at hr0
    have hr0 : heldRefs s.core.held s.heap.length + fieldRefs s.heap s.heap.length = 0 := hr0
    omega
  have hne : ∀ (a : Addr) (A : Block), s.heap[a]? = some A → a ≠ s.heap.length := by
    rintro a A ha rfl
    rw [hnone] at ha; cases ha
  have hget : ∀ x, (s.heap ++ [Block.mk uniqueCount fs .live])[x]? =
      if x = s.heap.length then some (Block.mk uniqueCount fs .live) else s.heap[x]? := heap_append _ _
  let s1 : State T :=
    { s with heap := s.heap ++ [Block.mk uniqueCount fs .live], held := (t, s.heap.length) ::ₘ (s.held - references t fs) }
  have hget1 : ∀ x, s1.heap[x]? = if x = s.heap.length then some (Block.mk uniqueCount fs .live) else s.heap[x]? := hget
  have hk : Ok s1 (Function.update owner s.heap.length (some t)) := by
    refine h.change rfl (fun _ => rfl) rfl rfl (by show _ ≤ (s.heap ++ _).length; simp) hinv ?_ ?_ ?_ ?_ (fun _ _ h => Or.inl h) (fun _ _ _ _ h => Or.inl h) ?_
    · obtain ⟨rank, hr⟩ := h.acyclic
      have hM : ∀ l : List (Option Addr), ∃ M, ∀ f, some f ∈ l → rank f ≤ M := by
        intro l
        induction l with
        | nil => exact ⟨0, by simp⟩
        | cons f l ih =>
          obtain ⟨M, hM⟩ := ih
          refine ⟨max M (f.elim 0 rank), fun g hg => ?_⟩
          rcases List.mem_cons.1 hg with e | e
          · rw [← e]; exact Nat.le_max_right _ _
          · exact Nat.le_trans (hM g e) (Nat.le_max_left _ _)
      obtain ⟨M, hM⟩ := hM fs
      refine ⟨Function.update rank s.heap.length (M + 1), fun a b A ha hb => ?_⟩
      rw [hget1] at ha
      split at ha
      · rename_i he
        cases ha
        subst he
        have hbne : b ≠ s.heap.length := by
          rintro rfl
          exact hnh t (Multiset.mem_of_le hle (mem_references.2 ⟨rfl, hb⟩))
        rw [Function.update_self, Function.update_of_ne hbne]
        exact Nat.lt_succ_of_le (hM b hb)
      · rename_i he
        have hbne : b ≠ s.heap.length := by
          rintro rfl
          exact hnf a A ha hb
        rw [Function.update_of_ne he, Function.update_of_ne hbne]
        exact hr a b A ha hb
    · intro b t' hb
      by_cases he : b = s.heap.length
      · right
        rintro i ⟨l, k, hi⟩
        subst he
        exact absurd hi (hev i l k)
      · rw [Function.update_of_ne he] at hb; exact Or.inl hb
    · intro t' x hr
      have : s.core.Reach t' x ∨ x = s.heap.length := by
        induction hr with
        | held hx =>
          rcases Multiset.mem_cons.1 hx with hx | hx
          · cases hx; exact Or.inr rfl
          · exact Or.inl (.held (Multiset.mem_of_le (Multiset.sub_le_self _ _) hx))
        | @field a x A hr' ha hm ih =>
          have ha : (s.heap ++ [Block.mk uniqueCount fs .live])[a]? = some A := ha
          rw [hget] at ha
          split at ha
          · rename_i he
            cases ha
            left
            have hr2 := hinv.owner_reach hr' (t := t) (by rw [he]; exact Function.update_self _ _ _)
            subst hr2
            exact .held (Multiset.mem_of_le hle (mem_references.2 ⟨rfl, hm⟩))
          · rename_i he
            exact Or.inl (.field (ih.resolve_right he) ha hm)
      rcases this with h1 | rfl
      · exact Or.inl h1
      · right
        rintro i ⟨l, hi⟩
        exact absurd hi (hev i l _)
    · intro x X hX ho hc i hi
      have hxne : x ≠ s.heap.length := by
        rintro rfl
        rw [Function.update_self] at ho; cases ho
      have hX0 : s.core.Live x X := by
        refine ⟨?_, hX.2⟩
        have := hX.1
        have : (s.heap ++ [Block.mk uniqueCount fs .live])[x]? = some X := this
        rw [hget, if_neg hxne] at this
        exact this
      rw [Function.update_of_ne hxne] at ho
      refine Covered.transfer (P := fun _ => True) (s := s) (owner := owner) ?_ ?_ ?_ ?_
        (h.know.shared x X hX0 ho hc i hi) trivial
      · intro x _ h; exact .view h
      · intro y t2 _ h1 h2
        by_cases hm : (t2, y) ∈ references t fs
        · obtain ⟨e1, e2⟩ := mem_references.1 hm
          simp only at e1 e2
          subst e1
          refine .owned (a := s.heap.length) (A := Block.mk uniqueCount fs .live) ?_ e2 (Function.update_self _ _ _) h2
          rw [hget1, if_pos rfl]
        · refine .held (Multiset.mem_cons_of_mem ?_) h2
          rw [Multiset.mem_sub, Multiset.count_eq_zero.2 hm]
          exact Multiset.count_pos.2 h1
      · intro a A x t' _ h1 h2 h3 h4
        refine .owned (a := a) (A := A) ?_ h2 ?_ h4
        · rw [hget1, if_neg (hne a A h1)]; exact h1
        · rw [Function.update_of_ne (hne a A h1)]; exact h3
      · intro a A x _ h1 h2 h3 _ ih
        refine .field (a := a) (A := A) ?_ h2 ?_ (ih trivial)
        · rw [hget1, if_neg (hne a A h1)]; exact h1
        · rw [Function.update_of_ne (hne a A h1)]; exact h3
    · intro b B hB hc
      rw [hget1] at hB
      split at hB
      · cases hB; simp [uniqueCount, staticCount_eq] at hc
      · exact ⟨B, hB, hc⟩
  have hr : s1.core.Reach t s.heap.length := .held (Multiset.mem_cons_self _ _)
  have hx : ∀ t', s1.core.Reach t' s.heap.length → t' = t :=
    fun t' hr => hk.inv.owner_reach hr (Function.update_self _ _ _)
  have hst : ∀ B : Block, s1.heap[s.heap.length]? = some B → B.count ≠ staticCount := by
    intro B hB
    have hB : (s.heap ++ [Block.mk uniqueCount fs .live])[s.heap.length]? = some B := hB
    rw [hget, if_pos rfl] at hB
    cases hB
    simp [uniqueCount, staticCount_eq]
  have he : s1.events s.heap.length ⊆ s1.know t := by
    rintro i ⟨l, k, hi⟩
    exact absurd hi (hev i l k)
  exact ⟨_, (hk.write hr (l := .count) he hx hst).write hr (l := .content) (events_known he) hx hst⟩

end Verif.Runtime.Graph
