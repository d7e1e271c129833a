import Verif.App.Packages

/-!
# C39: dependency order

External packages are put into an order in which every package precedes its dependencies; all
packages the main package needs are found.  A cycle of dependencies is *not* reported as an error:
reading the configurations of the packages does not terminate then, before packages are sorted.
-/

namespace Verif.App

/-! ## Specification -/

/-- `Reaches read deps url`: the package is a dependency, direct or indirect. -/
inductive Reaches (read : Url → Option (List Url)) (dependencies : List Url) : Url → Prop where
  | direct {url : Url} : url ∈ dependencies → Reaches read dependencies url
  | step {url next : Url} {ds : List Url} :
      Reaches read dependencies url → read url = some ds → next ∈ ds → Reaches read dependencies next

/-- An order of the nodes of a graph in which all edges point forwards. -/
def Ordered (g : Graph) (order : List Url) : Prop :=
  order.Nodup ∧ (∀ u, u ∈ order ↔ u ∈ g.nodes) ∧
  ∀ u v, (u, v) ∈ g.edges → ∃ a b, order = a ++ u :: b ∧ v ∈ b

/-- The contract of `petgraph::algo::toposort`: it finds an order whenever there is one. -/
def TopologicalSort (toposort : Graph → Option (List Url)) : Prop :=
  (∀ g order, toposort g = some order → Ordered g order) ∧
  (∀ g, (∀ e ∈ g.edges, e.1 ∈ g.nodes ∧ e.2 ∈ g.nodes) → toposort g = none →
    ∀ order, ¬Ordered g order)

/-! ## Reading configurations -/

theorem mem_distinct {u : Url} {us : List Url} : u ∈ distinct us ↔ u ∈ us := by
  induction us with
  | nil => simp [distinct]
  | cons v us ih =>
    unfold distinct
    split
    · rename_i h
      rw [ih, List.mem_cons]
      exact ⟨.inr, fun h' => h'.elim (fun e => e ▸ h) id⟩
    · simp [ih]

theorem nodup_distinct (us : List Url) : (distinct us).Nodup := by
  induction us with
  | nil => simp [distinct]
  | cons v us ih =>
    unfold distinct
    split
    · exact ih
    · rename_i h
      exact List.nodup_cons.2 ⟨fun h' => h (mem_distinct.1 h'), ih⟩

theorem readDependencies_sound (read : Url → Option (List Url)) :
    ∀ (n : Nat) (dependencies : List Url) (cs : List (Url × List Url)),
      readDependencies read n dependencies = .ok cs →
      (∀ u ∈ dependencies, u ∈ cs.map Prod.fst) ∧
      (∀ c ∈ cs, read c.1 = some c.2 ∧ Reaches read dependencies c.1 ∧
        ∀ d ∈ c.2, d ∈ cs.map Prod.fst) := by
  intro n dependencies
  induction n, dependencies using readDependencies.induct read with
  | case1 => intro cs h; simp [readDependencies] at h
  | case2 =>
    intro cs h
    simp only [readDependencies, Read.ok.injEq] at h
    subst h
    exact ⟨fun _ h => by simp at h, fun _ h => by simp at h⟩
  | case3 n url urls hr =>
    intro cs h
    simp [readDependencies, hr] at h
  | case4 n url urls ds hr inner hi rest hrest ih1 ih2 =>
    intro cs h
    simp only [readDependencies, hr, hi, hrest, Read.ok.injEq] at h
    subst h
    obtain ⟨a1, a2⟩ := ih1 inner hi
    obtain ⟨b1, b2⟩ := ih2 rest hrest
    have lift1 : ∀ u, Reaches read ds u → Reaches read (url :: urls) u := by
      intro u h
      induction h with
      | direct h => exact .step (.direct List.mem_cons_self) hr h
      | step _ h1 h2 ih => exact .step ih h1 h2
    have lift2 : ∀ u, Reaches read urls u → Reaches read (url :: urls) u := by
      intro u h
      induction h with
      | direct h => exact .direct (List.mem_cons_of_mem _ h)
      | step _ h1 h2 ih => exact .step ih h1 h2
    refine ⟨?_, ?_⟩
    · intro u hu
      simp only [List.cons_append, List.map_cons, List.map_append, List.mem_cons, List.mem_append]
      rcases List.mem_cons.1 hu with rfl | hu
      · exact .inl rfl
      · exact .inr (.inr (b1 u hu))
    · intro c hc
      simp only [List.cons_append, List.mem_cons, List.mem_append] at hc
      simp only [List.cons_append, List.map_cons, List.map_append, List.mem_cons, List.mem_append]
      rcases hc with rfl | hc | hc
      · exact ⟨hr, .direct List.mem_cons_self, fun d hd => .inr (.inl (a1 d hd))⟩
      · obtain ⟨c1, c2, c3⟩ := a2 c hc
        exact ⟨c1, lift1 _ c2, fun d hd => .inr (.inl (c3 d hd))⟩
      · obtain ⟨c1, c2, c3⟩ := b2 c hc
        exact ⟨c1, lift2 _ c2, fun d hd => .inr (.inr (c3 d hd))⟩
  | case5 n url urls ds hr inner hi hrest ih1 ih2 =>
    intro cs h
    simp only [readDependencies, hr, hi] at h
    exact absurd h (hrest cs)
  | case6 n url urls ds hr hi ih1 =>
    intro cs h
    simp only [readDependencies, hr] at h
    exact absurd h (hi cs)

/-- **C39**: the packages that are found are exactly the direct and indirect dependencies of the
main package, with their own dependencies. -/
theorem c39_all_dependencies (read : Url → Option (List Url)) (n : Nat) (dependencies : List Url)
    (cs : List (Url × List Url)) (h : readAll read n dependencies = .ok cs) (url : Url) :
    url ∈ keys cs ↔ Reaches read dependencies url := by
  obtain ⟨h1, h2⟩ := readDependencies_sound read n dependencies cs h
  unfold keys
  rw [mem_distinct]
  constructor
  · intro hu
    obtain ⟨c, hc, rfl⟩ := List.mem_map.1 hu
    exact (h2 c hc).2.1
  · intro hu
    induction hu with
    | direct hu => exact h1 _ hu
    | step _ hr hd ih =>
      obtain ⟨c, hc, rfl⟩ := List.mem_map.1 ih
      obtain ⟨c1, _, c3⟩ := h2 c hc
      rw [c1] at hr
      cases hr
      exact c3 _ hd

/-- **C39**: sorting finds every dependency among the packages. -/
theorem c39_no_panic (toposort : Graph → Option (List Url)) (read : Url → Option (List Url))
    (n : Nat) (dependencies : List Url) (cs : List (Url × List Url))
    (h : readAll read n dependencies = .ok cs) : sortPackages toposort cs ≠ .panic := by
  obtain ⟨h1, h2⟩ := readDependencies_sound read n dependencies cs h
  unfold sortPackages
  rw [if_pos]
  · split <;> simp
  · simp only [List.all_eq_true, decide_eq_true_eq]
    intro c hc d hd
    unfold keys
    rw [mem_distinct]
    exact (h2 c hc).2.2 d hd

/-- **C39**: in the resulting order every package that is needed occurs once, and before all of
its dependencies. -/
theorem c39_order (toposort : Graph → Option (List Url)) (ht : TopologicalSort toposort)
    (read : Url → Option (List Url)) (n : Nat) (dependencies : List Url)
    (cs : List (Url × List Url)) (h : readAll read n dependencies = .ok cs)
    (order : List Url) (ho : sortPackages toposort cs = .ok order) :
    order.Nodup ∧ (∀ url, url ∈ order ↔ Reaches read dependencies url) ∧
    ∀ url ds d, Reaches read dependencies url → read url = some ds → d ∈ ds →
      ∃ before after, order = before ++ url :: after ∧ d ∈ after := by
  obtain ⟨h1, h2⟩ := readDependencies_sound read n dependencies cs h
  unfold sortPackages at ho
  split at ho
  · split at ho
    · rename_i order' hs
      cases ho
      obtain ⟨o1, o2, o3⟩ := ht.1 _ _ hs
      refine ⟨o1, ?_, ?_⟩
      · intro url
        rw [o2]
        exact c39_all_dependencies read n dependencies cs h url
      · intro url ds d hu hr hd
        have hk := (c39_all_dependencies read n dependencies cs h url).2 hu
        unfold keys at hk
        rw [mem_distinct] at hk
        obtain ⟨c, hc, rfl⟩ := List.mem_map.1 hk
        obtain ⟨c1, _, _⟩ := h2 c hc
        rw [hr] at c1
        cases c1
        exact o3 c.1 d (List.mem_flatMap.2 ⟨c, hc, List.mem_map.2 ⟨d, hd, rfl⟩⟩)
    · cases ho
  · cases ho

/-! ## Termination -/

/-- A chain of dependencies. -/
inductive ChainFrom (read : Url → Option (List Url)) : Url → Nat → Prop where
  | one (url : Url) : ChainFrom read url 1
  | cons {url next : Url} {ds : List Url} {k : Nat} :
      read url = some ds → next ∈ ds → ChainFrom read next k → ChainFrom read url (k + 1)

/-- Reading descends as deep as the longest chain of dependencies. -/
theorem readDependencies_depth (read : Url → Option (List Url)) :
    ∀ (n : Nat) (dependencies : List Url) (cs : List (Url × List Url)),
      readDependencies read n dependencies = .ok cs →
      ∀ u ∈ dependencies, ∀ k, ChainFrom read u k → k < n := by
  intro n dependencies
  induction n, dependencies using readDependencies.induct read with
  | case1 => intro cs h; simp [readDependencies] at h
  | case2 => intro cs h u hu; simp at hu
  | case3 n url urls hr => intro cs h; simp [readDependencies, hr] at h
  | case4 n url urls ds hr inner hi rest hrest ih1 ih2 =>
    intro cs h u hu k hk
    rcases List.mem_cons.1 hu with rfl | hu
    · cases hk with
      | one =>
        cases n with
        | zero => simp [readDependencies] at hi
        | succ n => omega
      | cons hr' hd hk =>
        rw [hr] at hr'
        cases hr'
        have := ih1 inner hi _ hd _ hk
        omega
    · exact ih2 rest hrest u hu k hk
  | case5 n url urls ds hr inner hi hrest ih1 ih2 =>
    intro cs h
    simp only [readDependencies, hr, hi] at h
    exact absurd h (hrest cs)
  | case6 n url urls ds hr hi ih1 =>
    intro cs h
    simp only [readDependencies, hr] at h
    exact absurd h (hi cs)

/-- A package on a cycle starts chains of any length. -/
theorem chain_of_cycle (read : Url → Option (List Url)) (ds : List Url) (start : Url)
    (hs : read start = some ds) (hc : Reaches read ds start) (k : Nat) :
    ChainFrom read start (k + 1) := by
  induction k with
  | zero => exact .one start
  | succ k ih =>
    have key : ∀ u, Reaches read ds u → (∃ j, k ≤ j ∧ ChainFrom read u (j + 1)) →
        ∃ d ∈ ds, ∃ j, k ≤ j ∧ ChainFrom read d (j + 1) := by
      intro u hu
      induction hu with
      | direct h => exact fun hk => ⟨_, h, hk⟩
      | step _ hr hd ih' =>
        rintro ⟨j, hj, hk⟩
        exact ih' ⟨j + 1, by omega, .cons hr hd hk⟩
    obtain ⟨d, hd, j, hj, hk⟩ := key start hc ⟨k, Nat.le_refl _, ih⟩
    have shorten : ∀ m u, ChainFrom read u (m + 1) → ∀ l ≤ m, ChainFrom read u (l + 1) := by
      intro m
      induction m with
      | zero =>
        intro u h l hl
        have : l = 0 := by omega
        subst this
        exact h
      | succ m ihm =>
        intro u h l hl
        cases h with
        | cons hr hd hk =>
          cases l with
          | zero => exact .one u
          | succ l => exact .cons hr hd (ihm _ hk l (by omega))
    exact .cons hs hd (shorten j d hk k hj)

/-- **C39 is violated for cycles**: if the main package has a dependency that depends on itself,
directly or indirectly, reading the configurations never succeeds, at any depth of recursion, so
that packages are never sorted and the error for cycles is never reported. -/
theorem c39_cycle_not_reported (read : Url → Option (List Url)) (dependencies : List Url)
    (url : Url) (ds : List Url) (hu : Reaches read dependencies url) (hr : read url = some ds)
    (hc : Reaches read ds url) (n : Nat) (cs : List (Url × List Url)) :
    readAll read n dependencies ≠ .ok cs := by
  intro h
  have key : ∀ u, Reaches read dependencies u → (∀ k, ChainFrom read u (k + 1)) →
      ∃ d ∈ dependencies, ∀ k, ∃ j, k ≤ j ∧ ChainFrom read d (j + 1) := by
    intro u hu
    induction hu with
    | direct h => exact fun hk => ⟨_, h, fun k => ⟨k, Nat.le_refl _, hk k⟩⟩
    | step _ hr hd ih =>
      intro hk
      refine ih fun k => ?_
      cases k with
      | zero => exact .one _
      | succ k => exact .cons hr hd (hk k)
  obtain ⟨d, hd, hk⟩ := key url hu (chain_of_cycle read ds url hr hc)
  obtain ⟨j, hj, hk⟩ := hk n
  have := readDependencies_depth read n dependencies cs h d hd _ hk
  omega

/-- Two packages that depend on each other: reading does not finish at any depth. -/
def mutualPackages : Url → Option (List Url)
  | 0 => some [1]
  | 1 => some [0]
  | _ => none

theorem c39_cycle_diverges (n : Nat) :
    readAll mutualPackages n [0] = .unfinished ∧ readAll mutualPackages n [1] = .unfinished := by
  unfold readAll
  induction n with
  | zero => simp [readDependencies]
  | succ n ih => simp [readDependencies, mutualPackages, ih.1, ih.2]

/-- **C39**: if dependencies are acyclic (every package has a height greater than those of its
dependencies) and all configurations can be read, reading them finishes, at the depth of the
heights. -/
theorem c39_acyclic_finishes (read : Url → Option (List Url)) (height : Url → Nat) :
    ∀ (n : Nat) (dependencies : List Url), 0 < n → (∀ u ∈ dependencies, height u + 1 < n) →
      (∀ u, Reaches read dependencies u → ∃ ds, read u = some ds ∧ ∀ d ∈ ds, height d < height u) →
      ∃ cs, readAll read n dependencies = .ok cs := by
  intro n
  unfold readAll
  induction n with
  | zero => intro _ h; omega
  | succ n ih =>
    intro dependencies
    induction dependencies with
    | nil => exact fun _ _ _ => ⟨[], by simp [readDependencies]⟩
    | cons u us ihu =>
      intro h0 hh hr
      obtain ⟨ds, hds, hlt⟩ := hr u (.direct List.mem_cons_self)
      have hu := hh u List.mem_cons_self
      obtain ⟨inner, hi⟩ := ih ds (by omega) (fun d hd => by have := hlt d hd; omega) (by
        intro v hv
        refine hr v ?_
        induction hv with
        | direct h => exact .step (.direct List.mem_cons_self) hds h
        | step _ h1 h2 ih => exact .step ih h1 h2)
      obtain ⟨rest, hrest⟩ := ihu h0 (fun v hv => hh v (List.mem_cons_of_mem _ hv)) (by
        intro v hv
        refine hr v ?_
        induction hv with
        | direct h => exact .direct (List.mem_cons_of_mem _ h)
        | step _ h1 h2 ih => exact .step ih h1 h2)
      exact ⟨(u, ds) :: inner ++ rest, by simp [readDependencies, hds, hi, hrest]⟩

/-- Nodes sorted by decreasing height are ordered. -/
theorem ordered_of_height (g : Graph) (height : Url → Nat) (hn : g.nodes.Nodup)
    (he : ∀ e ∈ g.edges, e.1 ∈ g.nodes ∧ e.2 ∈ g.nodes ∧ height e.2 < height e.1) :
    Ordered g (g.nodes.mergeSort fun a b => decide (height b ≤ height a)) := by
  have hperm := List.mergeSort_perm g.nodes fun a b => decide (height b ≤ height a)
  have hsorted := List.pairwise_mergeSort (le := fun a b => decide (height b ≤ height a))
    (by intro a b c h1 h2; simp at h1 h2 ⊢; omega) (by intro a b; simp; omega) g.nodes
  refine ⟨hperm.symm.nodup_iff.1 hn, fun u => hperm.mem_iff, ?_⟩
  intro u v huv
  obtain ⟨h1, h2, h3⟩ := he _ huv
  obtain ⟨a, b, hab⟩ := List.append_of_mem (hperm.mem_iff.2 h1)
  refine ⟨a, b, hab, ?_⟩
  have hv := hperm.mem_iff.2 h2
  rw [hab] at hv hsorted
  simp only [List.mem_append, List.mem_cons] at hv
  rcases hv with hv | hv | hv
  · have := (List.pairwise_append.1 hsorted).2.2 v hv u List.mem_cons_self
    simp at this h3
    omega
  · subst hv
    simp at h3
  · exact hv

/-- **C39**: acyclic dependencies are sorted. -/
theorem c39_acyclic_sorted (toposort : Graph → Option (List Url)) (ht : TopologicalSort toposort)
    (read : Url → Option (List Url)) (height : Url → Nat) (n : Nat) (dependencies : List Url)
    (cs : List (Url × List Url)) (h : readAll read n dependencies = .ok cs)
    (hh : ∀ u ds, read u = some ds → ∀ d ∈ ds, height d < height u) :
    ∃ order, sortPackages toposort cs = .ok order := by
  have hp := c39_no_panic toposort read n dependencies cs h
  obtain ⟨h1, h2⟩ := readDependencies_sound read n dependencies cs h
  unfold sortPackages at hp ⊢
  split
  · split
    · exact ⟨_, rfl⟩
    · rename_i hnone
      exfalso
      have hedges : ∀ e ∈ (Graph.mk (keys cs)
          (cs.flatMap fun (url, dependencies) => dependencies.map fun d => (url, d))).edges,
          e.1 ∈ keys cs ∧ e.2 ∈ keys cs ∧ height e.2 < height e.1 := by
        intro e he
        obtain ⟨c, hc, he⟩ := List.mem_flatMap.1 he
        obtain ⟨d, hd, rfl⟩ := List.mem_map.1 he
        obtain ⟨c1, _, c3⟩ := h2 c hc
        unfold keys
        rw [mem_distinct, mem_distinct]
        exact ⟨List.mem_map.2 ⟨c, hc, rfl⟩, c3 d hd, hh _ _ c1 d hd⟩
      exact ht.2 _ (fun e he => ⟨(hedges e he).1, (hedges e he).2.1⟩) hnone _
        (ordered_of_height _ height (nodup_distinct _) hedges)
  · rename_i hn
    rw [if_neg hn] at hp
    exact absurd rfl hp

/-- The contract can be met. -/
theorem toposort_exists : ∃ toposort, TopologicalSort toposort := by
  classical
  refine ⟨fun g => if h : ∃ order, Ordered g order then some h.choose else none, ?_, ?_⟩
  · intro g order h
    simp only at h
    split at h
    · rename_i hex
      cases h
      exact hex.choose_spec
    · cases h
  · intro g _ h order ho
    simp only at h
    rw [dif_pos ⟨order, ho⟩] at h
    cases h

/-- A diamond of dependencies. -/
def diamond : Url → Option (List Url)
  | 0 => some [1, 2]
  | 1 => some [3]
  | 2 => some [3]
  | 3 => some []
  | _ => none

example : readAll diamond 4 [0] = .ok [(0, [1, 2]), (1, [3]), (3, []), (2, [3]), (3, [])] := by
  simp [readAll, readDependencies, diamond]

example (toposort : Graph → Option (List Url)) (ht : TopologicalSort toposort) :
    ∃ order, sortPackages toposort [(0, [1, 2]), (1, [3]), (3, []), (2, [3]), (3, [])] = .ok order :=
  c39_acyclic_sorted toposort ht diamond (fun u => 4 - u) 4 [0] _
    (by simp [readAll, readDependencies, diamond])
    (by
      intro u ds h d hd
      unfold diamond at h
      split at h <;> simp at h <;> subst h <;> simp at hd <;> first | omega | (rcases hd with rfl | rfl <;> decide))

end Verif.App
