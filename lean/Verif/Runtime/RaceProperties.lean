import Verif.Runtime.Race

/-!
# C35: `race`
-/
namespace Verif.Runtime.Race

variable {α : Type} {capacity : Nat} {xss : Items (Items α)}

theorem ofList_append (i : Nat) (a b : List (Nat × α)) : ofList i (a ++ b) = ofList i a ++ ofList i b :=
  List.filterMap_append

theorem ofList_single (i j : Nat) (x : α) : ofList i [(j, x)] = if j = i then [x] else [] := by
  simp only [ofList, List.filterMap_cons, List.filterMap_nil]
  split <;> simp_all <;> split <;> simp_all

structure Inv (xss : Items (Items α)) (s : State α) : Prop where
  /-- what a task has sent is the start of its list, in order -/
  sent : ∀ i xs, xss i = some xs → (ofList i (s.output ++ s.channel)).map some = (List.range (s.sent i)).map xs
  /-- everything sent comes from one of the lists -/
  source : ∀ e ∈ s.output ++ s.channel, e.1 < s.spawned ∧ ∃ xs, xss e.1 = some xs
  unspawned : ∀ i, s.spawned ≤ i → s.sent i = 0 ∧ s.done i = false
  taken : ∀ i, i < s.spawned → ∃ xs, xss i = some xs
  spawnerDone : s.spawnerDone = true → xss s.spawned = none
  done : ∀ i, s.done i = true → ∃ xs, xss i = some xs ∧ xs (s.sent i) = none
  closed : s.closed = true → s.channel = [] ∧ s.spawnerDone = true ∧ ∀ i, i < s.spawned → s.done i = true

theorem inv_new : Inv xss (State.new : State α) := by
  refine ⟨?_, ?_, ?_, ?_, ?_, ?_, ?_⟩ <;> simp [State.new, ofList]

theorem inv_step {s s' : State α} (hi : Inv xss s) (h : Step capacity xss s s') : Inv xss s' := by
  cases h with
  | spawn xs h1 h2 =>
    refine ⟨hi.sent, ?_, ?_, ?_, ?_, hi.done, ?_⟩
    · intro e he
      obtain ⟨a, b⟩ := hi.source e he
      exact ⟨Nat.lt_succ_of_lt a, b⟩
    · intro i h
      exact hi.unspawned i (by simp only at h; omega)
    · intro i h
      rcases Nat.lt_succ_iff_lt_or_eq.1 h with h | h
      · exact hi.taken i h
      · exact ⟨xs, h ▸ h2⟩
    · intro h; simp only [h1] at h; cases h
    · intro h
      have := (hi.closed h).2.1
      rw [h1] at this; cases this
  | spawnerEnd h1 h2 =>
    refine ⟨hi.sent, hi.source, hi.unspawned, hi.taken, fun _ => h2, hi.done, ?_⟩
    intro h
    have := (hi.closed h).2.1
    rw [h1] at this; cases this
  | send i xs x h1 h2 h3 h4 h5 =>
    refine ⟨?_, ?_, ?_, hi.taken, hi.spawnerDone, ?_, ?_⟩
    · intro j ys hj
      simp only [← List.append_assoc]
      rw [ofList_append, ofList_single, List.map_append, hi.sent j ys hj]
      by_cases hij : i = j
      · subst hij
        rw [h3] at hj; cases hj
        rw [Function.update_self, List.range_succ]
        simp [h4]
      · rw [Function.update_of_ne (fun h => hij h.symm), if_neg hij]
        simp
    · intro e he
      rw [← List.append_assoc, List.mem_append] at he
      rcases he with he | he
      · exact hi.source e he
      · rw [List.mem_singleton] at he
        subst he
        exact ⟨h1, xs, h3⟩
    · intro j hj
      have hj' : s.spawned ≤ j := hj
      obtain ⟨a, b⟩ := hi.unspawned j hj'
      exact ⟨by simp only; rw [Function.update_of_ne (by omega)]; exact a, b⟩
    · intro j hj
      by_cases hij : j = i
      · subst hij; simp only [h2] at hj; cases hj
      · simp only; rw [Function.update_of_ne hij]; exact hi.done j hj
    · intro h
      have := (hi.closed h).2.2 i h1
      rw [h2] at this; cases this
  | taskEnd i xs h1 h2 h3 h4 =>
    refine ⟨hi.sent, hi.source, ?_, hi.taken, hi.spawnerDone, ?_, ?_⟩
    · intro j hj
      have hj' : s.spawned ≤ j := hj
      obtain ⟨a, b⟩ := hi.unspawned j hj'
      exact ⟨a, by simp only; rw [Function.update_of_ne (by omega)]; exact b⟩
    · intro j hj
      by_cases hij : j = i
      · subst hij; exact ⟨xs, h3, h4⟩
      · simp only at hj; rw [Function.update_of_ne hij] at hj; exact hi.done j hj
    · intro h
      have := (hi.closed h).2.2 i h1
      rw [h2] at this; cases this
  | receive e es h1 h2 =>
    have hsame : (s.output ++ [e]) ++ es = s.output ++ s.channel := by rw [h2]; simp
    refine ⟨?_, ?_, hi.unspawned, hi.taken, hi.spawnerDone, hi.done, ?_⟩
    · intro i xs h
      simp only [hsame]
      exact hi.sent i xs h
    · intro e' he
      simp only [hsame] at he
      exact hi.source e' he
    · intro h; simp only [h1] at h; cases h
  | close h1 h2 h3 h4 =>
    exact ⟨hi.sent, hi.source, hi.unspawned, hi.taken, hi.spawnerDone, hi.done, fun _ => ⟨h2, h3, h4⟩⟩

theorem Reachable.inv {s : State α} (h : Reachable capacity xss s) : Inv xss s := by
  induction h with
  | new => exact inv_new
  | step _ hs ih => exact inv_step ih hs

/-- **C35**, at any moment of any schedule: everything read comes from one of the lists, and what has been read of each
list is its beginning, in order and without repetition. -/
theorem c35_prefix {s : State α} (h : Reachable capacity xss s) :
    (∀ e ∈ s.output, ∃ xs, xss e.1 = some xs) ∧
      ∀ i xs, xss i = some xs → ∃ k, (ofList i s.output).map some = (List.range k).map xs := by
  have hi := h.inv
  refine ⟨fun e he => (hi.source e (List.mem_append_left _ he)).2, ?_⟩
  intro i xs hx
  have := hi.sent i xs hx
  rw [ofList_append, List.map_append] at this
  refine ⟨(ofList i s.output).length, ?_⟩
  have h2 := congrArg (List.take (ofList i s.output).length) this
  rw [List.take_append_of_le_length (by simp), List.take_of_length_le (by simp), ← List.map_take, List.take_range] at h2
  have h3 := congrArg List.length this
  simp only [List.length_append, List.length_map, List.length_range] at h3
  rw [h2, Nat.min_eq_left (by omega)]

/-- **C35**, when the result ends: every list has been read completely, in its order. -/
theorem c35_complete {s : State α} (h : Reachable capacity xss s) (hc : s.closed = true) (hdown : ∀ i, xss i = none → ∀ j, i ≤ j → xss j = none) :
    ∀ i xs, xss i = some xs → ∃ k, xs k = none ∧ (ofList i s.output).map some = (List.range k).map xs := by
  have hi := h.inv
  obtain ⟨h1, h2, h3⟩ := hi.closed hc
  intro i xs hx
  have hlt : i < s.spawned := by
    by_contra hge
    have := hdown _ (hi.spawnerDone h2) i (by omega)
    rw [hx] at this; cases this
  obtain ⟨ys, hy, hn⟩ := hi.done i (h3 i hlt)
  rw [hx] at hy; cases hy
  refine ⟨s.sent i, hn, ?_⟩
  have := hi.sent i xs hx
  rwa [h1, List.append_nil] at this

theorem map_some_inj {a b : List α} (h : a.map some = b.map some) : a = b :=
  (List.map_inj_right (fun _ _ h => Option.some.inj h)).1 h

theorem range_items (l : List α) (k : Nat) (hk : items l k = none) (as : List α)
    (h : as.map some = (List.range k).map (items l)) : as = l := by
  have hl : l.length ≤ k := by simpa [items] using hk
  have hk' : k = l.length := by
    by_contra hne
    have hlt : l.length < k := by omega
    have : items l l.length ∈ (List.range k).map (items l) := List.mem_map.2 ⟨_, List.mem_range.2 hlt, rfl⟩
    rw [← h] at this
    simp [items] at this
  apply map_some_inj
  rw [h, hk']
  apply List.ext_getElem?
  intro n
  simp only [List.getElem?_map]
  by_cases hn : n < l.length
  · simp [items, hn]
  · simp [hn]

/-- **C35** for finite lists: when the result has been read to its end, what came from each list is that list. -/
theorem c35_complete_finite {ls : List (List α)} {s : State α} (h : Reachable capacity (itemsOfLists ls) s)
    (hc : s.closed = true) (i : Nat) (hi : i < ls.length) : ofList i s.output = ls[i] := by
  obtain ⟨k, h1, h2⟩ := c35_complete h hc (by
    intro i hi j hij
    simp only [itemsOfLists, Option.map_eq_none_iff, List.getElem?_eq_none_iff] at hi ⊢
    omega) i (items ls[i]) (by simp [itemsOfLists, hi])
  exact range_items _ k h1 _ h2

/-- **C35**, no deadlock: until the result has been read to its end, some task or the reader can go on. -/
theorem c35_progress (hcap : 0 < capacity) {s : State α} (h : Reachable capacity xss s) (hc : s.closed = false) :
    ∃ s', Step capacity xss s s' := by
  have hi := h.inv
  cases hch : s.channel with
  | cons e es => exact ⟨_, .receive s e es hc hch⟩
  | nil =>
    cases hsd : s.spawnerDone with
    | false =>
      cases hx : xss s.spawned with
      | none => exact ⟨_, .spawnerEnd s hsd hx⟩
      | some xs => exact ⟨_, .spawn s xs hsd hx⟩
    | true =>
      by_cases hall : ∀ i, i < s.spawned → s.done i = true
      · exact ⟨_, .close s hc hch hsd hall⟩
      · simp only [not_forall] at hall
        obtain ⟨i, hlt, hnd⟩ := hall
        have hnd' : s.done i = false := by simpa using hnd
        obtain ⟨xs, hx⟩ := hi.taken i hlt
        cases hxi : xs (s.sent i) with
        | none => exact ⟨_, .taskEnd s i xs hlt hnd' hx hxi⟩
        | some x => exact ⟨_, .send s i xs x hlt hnd' hx hxi (by rw [hch]; exact hcap)⟩

/-! ### Termination for finite lists -/

/-- Work left for the task of list `i`. -/
def work (ls : List (List α)) (s : State α) (i : Nat) : Nat :=
  2 * ((ls[i]?.getD []).length - s.sent i) + if s.done i then 0 else 1

def remaining (ls : List (List α)) (s : State α) : Nat :=
  (ls.length - s.spawned) + (if s.spawnerDone then 0 else 1) + ((List.range ls.length).map (work ls s)).sum +
    s.channel.length + (if s.closed then 0 else 1)

theorem sum_update {f g : Nat → Nat} {i n d : Nat} (hi : i < n) (hf : f i = g i + d) (hne : ∀ j, j ≠ i → f j = g j) :
    ((List.range n).map f).sum = ((List.range n).map g).sum + d := by
  induction n with
  | zero => omega
  | succ n ih =>
    simp only [List.range_succ, List.map_append, List.sum_append, List.map_cons, List.map_nil, List.sum_cons, List.sum_nil]
    by_cases h : i = n
    · subst h
      have : (List.range i).map f = (List.range i).map g := by
        apply List.map_congr_left
        intro j hj
        rw [List.mem_range] at hj
        exact hne j (by omega)
      rw [this]; omega
    · have := ih (by omega)
      rw [hne n (fun h' => h h'.symm)]; omega

theorem remaining_step {ls : List (List α)} {s s' : State α} (h : Step capacity (itemsOfLists ls) s s') :
    remaining ls s' < remaining ls s := by
  cases h with
  | spawn xs h1 h2 =>
    have : s.spawned < ls.length := by
      by_contra h
      simp only [itemsOfLists, Option.map_eq_some_iff] at h2
      obtain ⟨a, h2, _⟩ := h2
      rw [List.getElem?_eq_none (by omega)] at h2; cases h2
    have hw : work ls { s with spawned := s.spawned + 1 } = work ls s := rfl
    simp only [remaining, hw]; omega
  | spawnerEnd h1 h2 =>
    have hw : work ls { s with spawnerDone := true } = work ls s := rfl
    simp only [remaining, hw, h1]; simp
  | send i xs x h1 h2 h3 h4 h5 =>
    have hl : i < ls.length := by
      by_contra h
      simp only [itemsOfLists, Option.map_eq_some_iff] at h3
      obtain ⟨a, h2, _⟩ := h3
      rw [List.getElem?_eq_none (by omega)] at h2; cases h2
    have hx : s.sent i < ls[i].length := by
      simp only [itemsOfLists, List.getElem?_eq_getElem hl, Option.map_some, Option.some.injEq] at h3
      subst h3
      by_contra h
      simp only [items] at h4
      rw [List.getElem?_eq_none (by omega)] at h4; cases h4
    have hs := sum_update (f := work ls s)
      (g := work ls { s with channel := s.channel ++ [(i, x)], sent := Function.update s.sent i (s.sent i + 1) })
      (d := 2) hl
      (by simp only [work, Function.update_self, List.getElem?_eq_getElem hl, Option.getD_some]; omega)
      (by intro j hj; simp only [work, Function.update_of_ne hj])
    simp only [remaining, hs, List.length_append, List.length_singleton]; omega
  | taskEnd i xs h1 h2 h3 h4 =>
    have hl : i < ls.length := by
      by_contra h
      simp only [itemsOfLists, Option.map_eq_some_iff] at h3
      obtain ⟨a, h2, _⟩ := h3
      rw [List.getElem?_eq_none (by omega)] at h2; cases h2
    have hs := sum_update (f := work ls s) (g := work ls { s with done := Function.update s.done i true }) (d := 1) hl
      (by simp only [work, Function.update_self, h2]; simp)
      (by intro j hj; simp only [work, Function.update_of_ne hj])
    simp only [remaining, hs]; omega
  | receive e es h1 h2 =>
    have hw : work ls { s with channel := es, output := s.output ++ [e] } = work ls s := rfl
    simp only [remaining, hw, h2, List.length_cons]; omega
  | close h1 h2 h3 h4 =>
    have hw : work ls { s with closed := true } = work ls s := rfl
    simp only [remaining, hw, h1]; simp

/-- **C35**, termination: with finite lists no schedule goes on for ever. -/
theorem c35_terminates (ls : List (List α)) (s : State α) : Acc (fun s' s => Step capacity (itemsOfLists ls) s s') s :=
  (InvImage.wf (remaining ls) Nat.lt_wfRel.wf).apply s |> Subrelation.accessible (fun h => remaining_step h)

/-- The sequential version is an interleaving as well: the lists one after the other. -/
theorem c35_sync (ls : List (List α)) : raceSync ls = ls.flatten := by
  induction ls with
  | nil => rfl
  | cons l ls ih => simp [raceSync, ih]

/-- The channel has room for at least one element. -/
theorem c35_capacity (n : Nat) (h : 0 < n) : 0 < capacityOf n := by simp [capacityOf]; omega

/-- A schedule of two lists in which the second list's element overtakes the first's. -/
example : ∃ s : State Nat, Reachable 2 (itemsOfLists [[1], [2]]) s ∧ s.closed = true ∧ s.output = [(1, 2), (0, 1)] := by
  have r0 := Reachable.new (capacity := 2) (xss := itemsOfLists [[1], [2]])
  have r1 := r0.step (.spawn _ (items [1]) rfl rfl)
  have r2 := r1.step (.spawn _ (items [2]) rfl rfl)
  have r3 := r2.step (.spawnerEnd _ rfl rfl)
  have r4 := r3.step (.send _ 1 (items [2]) 2 (by decide) rfl rfl rfl (by decide))
  have r5 := r4.step (.send _ 0 (items [1]) 1 (by decide) rfl rfl rfl (by decide))
  have r6 := r5.step (.taskEnd _ 0 (items [1]) (by decide) rfl rfl rfl)
  have r7 := r6.step (.taskEnd _ 1 (items [2]) (by decide) rfl rfl rfl)
  have r8 := r7.step (.receive _ _ _ rfl rfl)
  have r9 := r8.step (.receive _ _ _ rfl rfl)
  have hd : ∀ i, i < 2 →
      Function.update (Function.update (fun _ : Nat => false) 0 true) 1 true i = true := by
    intro i hi
    match i, hi with
    | 0, _ => rfl
    | 1, _ => rfl
  exact ⟨_, r9.step (.close _ rfl rfl rfl hd), rfl, rfl⟩

end Verif.Runtime.Race
