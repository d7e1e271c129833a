import Mathlib.Data.List.Perm.Basic
import Mathlib.Data.List.Nodup
import Mathlib.Data.Finset.Card
import Mathlib.Logic.Relation
import Mathlib.Data.Fintype.Pigeonhole

/-!
# Topological sorting

`petgraph::algo::toposort` is a library outside `/repo`. It is modelled by a simple executable algorithm
with the same contract: an order in which the source of every edge precedes its target, or an error when
the graph has a cycle. Both directions of the contract are proved here. Which of several valid orders the
library picks is not modelled, so theorems about callers use the contract only.
-/

namespace Verif

variable {α : Type} [DecidableEq α]

/-- Repeatedly take the first remaining node without an incoming edge from a remaining node. -/
def toposortGo (edges : List (α × α)) : Nat → List α → Option (List α)
  | _, [] => some []
  | 0, _ :: _ => none
  | n + 1, rest =>
    match rest.find? (fun v => rest.all (fun u => !edges.contains (u, v))) with
    | none => none
    | some v => (toposortGo edges n (rest.erase v)).map (v :: ·)

/-- `petgraph::algo::toposort`, `none` standing for `Err(Cycle)`. -/
def toposort (nodes : List α) (edges : List (α × α)) : Option (List α) :=
  toposortGo edges nodes.length nodes

omit [DecidableEq α] in
theorem exists_cycle {s : List α} (hne : s ≠ []) {R : α → α → Prop}
    (h : ∀ v ∈ s, ∃ u ∈ s, R u v) : ∃ v ∈ s, Relation.TransGen R v v := by
  classical
  have hf : ∃ f : {x // x ∈ s} → {x // x ∈ s}, ∀ v, R (f v).1 v.1 := by
    refine ⟨fun v => ⟨(h v.1 v.2).choose, (h v.1 v.2).choose_spec.1⟩, fun v => ?_⟩
    exact (h v.1 v.2).choose_spec.2
  obtain ⟨f, hf⟩ := hf
  obtain ⟨a, ha⟩ := List.exists_mem_of_ne_nil s hne
  have hfin : Finite {x // x ∈ s} := by
    have : Finite {x // x ∈ s.toFinset} := inferInstance
    refine Finite.of_injective (fun x : {x // x ∈ s} => (⟨x.1, by simpa using x.2⟩ : {x // x ∈ s.toFinset})) ?_
    intro x y hxy
    simpa [Subtype.ext_iff] using hxy
  obtain ⟨i, j, hij, heq⟩ := Finite.exists_ne_map_eq_of_infinite (fun n : ℕ => f^[n] ⟨a, ha⟩)
  have key : ∀ k (x : {x // x ∈ s}), Relation.TransGen R (f^[k + 1] x).1 x.1 := by
    intro k
    induction k with
    | zero => intro x; exact .single (hf x)
    | succ k ih =>
      intro x
      rw [Function.iterate_succ_apply]
      exact .trans (ih (f x)) (.single (hf x))
  have fin : ∀ i j : ℕ, i < j → f^[i] (⟨a, ha⟩ : {x // x ∈ s}) = f^[j] ⟨a, ha⟩ →
      ∃ v ∈ s, Relation.TransGen R v v := by
    intro i j hlt heq
    obtain ⟨k, rfl⟩ : ∃ k, j = (k + 1) + i := ⟨j - i - 1, by omega⟩
    rw [Function.iterate_add_apply] at heq
    have := key k (f^[i] ⟨a, ha⟩)
    rw [← heq] at this
    exact ⟨_, (f^[i] ⟨a, ha⟩).2, this⟩
  rcases Nat.lt_or_gt_of_ne hij with h | h
  · exact fin i j h heq
  · exact fin j i h heq.symm

theorem toposortGo_some {edges : List (α × α)} : ∀ {n rest order},
    toposortGo edges n rest = some order →
      order.Perm rest ∧ order.Pairwise (fun u v => (v, u) ∉ edges) ∧ ∀ v ∈ order, (v, v) ∉ edges
  | n, [], order, h => by
    unfold toposortGo at h
    cases h
    simp
  | 0, a :: as, order, h => by simp [toposortGo] at h
  | n + 1, a :: as, order, h => by
    unfold toposortGo at h
    split at h
    · cases h
    · rename_i v hv
      obtain ⟨o, h1, rfl⟩ := Option.map_eq_some_iff.mp h
      have hmem := List.mem_of_find?_eq_some hv
      have hp := List.find?_some hv
      simp only [List.all_eq_true, Bool.not_eq_true', List.contains_eq_mem, decide_eq_false_iff_not] at hp
      obtain ⟨h2, h3, h4⟩ := toposortGo_some h1
      refine ⟨(h2.cons v).trans (List.perm_cons_erase hmem).symm, ?_, ?_⟩
      · refine List.pairwise_cons.mpr ⟨fun u hu => ?_, h3⟩
        exact hp u (List.mem_of_mem_erase (h2.mem_iff.mp hu))
      · intro u hu
        rcases List.mem_cons.mp hu with rfl | hu
        · exact hp _ hmem
        · exact h4 u hu

theorem toposortGo_none {edges : List (α × α)} : ∀ {n rest}, rest.length ≤ n →
    toposortGo edges n rest = none → ∃ v, Relation.TransGen (fun a b => (a, b) ∈ edges) v v
  | n, [], _, h => by simp [toposortGo] at h
  | 0, a :: as, hl, _ => by simp at hl
  | n + 1, a :: as, hl, h => by
    unfold toposortGo at h
    split at h
    · rename_i hv
      rw [List.find?_eq_none] at hv
      obtain ⟨v, _, hc⟩ := exists_cycle (s := a :: as) (by simp) (R := fun a b => (a, b) ∈ edges) (by
        intro v hm
        have := hv v hm
        simp only [Bool.not_eq_true, List.all_eq_false, Bool.not_eq_false',
          List.contains_eq_mem, decide_eq_true_eq] at this
        exact this)
      exact ⟨v, hc⟩
    · rename_i v hv
      have hmem := List.mem_of_find?_eq_some hv
      rw [Option.map_eq_none_iff] at h
      refine toposortGo_none ?_ h
      rw [List.length_erase_of_mem hmem]
      simp at hl ⊢
      omega

/-- The order found is a permutation of the nodes in which no edge goes backwards. -/
theorem toposort_some {nodes : List α} {edges : List (α × α)} {order}
    (h : toposort nodes edges = some order) :
    order.Perm nodes ∧ order.Pairwise (fun u v => (v, u) ∉ edges) ∧ ∀ v ∈ nodes, (v, v) ∉ edges := by
  obtain ⟨h1, h2, h3⟩ := toposortGo_some h
  exact ⟨h1, h2, fun v hv => h3 v (h1.mem_iff.mpr hv)⟩

theorem toposort_none {nodes : List α} {edges : List (α × α)} (h : toposort nodes edges = none) :
    ∃ v, Relation.TransGen (fun a b => (a, b) ∈ edges) v v :=
  toposortGo_none (Nat.le_refl _) h

/-- Induction along a topological order: a property that holds of a node as soon as it holds of all its
successors holds of every node. -/
theorem topological_induction {edges : List (α × α)} {P : α → Prop} : ∀ (order : List α),
    order.Pairwise (fun u v => (v, u) ∉ edges) → (∀ v ∈ order, (v, v) ∉ edges) →
    (∀ v ∈ order, (∀ w, (v, w) ∈ edges → w ∈ order → P w) → P v) → ∀ v ∈ order, P v
  | [], _, _, _ => by simp
  | a :: as, hp, hs, h => by
    rw [List.pairwise_cons] at hp
    have ih := topological_induction (P := P) as hp.2 (fun v hv => hs v (by simp [hv])) (by
      intro v hv H
      refine h v (by simp [hv]) fun w hw hm => ?_
      rcases List.mem_cons.mp hm with rfl | hm
      · exact absurd hw (hp.1 v hv)
      · exact H w hw hm)
    intro v hv
    rcases List.mem_cons.mp hv with rfl | hv
    · refine h v (by simp) fun w hw hm => ?_
      rcases List.mem_cons.mp hm with rfl | hm
      · exact absurd hw (hs w (by simp))
      · exact ih w hm
    · exact ih v hv

/-- An order in which no edge goes backwards excludes cycles. -/
theorem no_cycle_of_toposort {nodes : List α} {edges : List (α × α)} {order}
    (h : toposort nodes edges = some order) (hn : ∀ e ∈ edges, e.1 ∈ nodes ∧ e.2 ∈ nodes) (v : α) :
    ¬ Relation.TransGen (fun a b => (a, b) ∈ edges) v v := by
  obtain ⟨h1, h2, h3⟩ := toposort_some h
  intro hc
  have hv : v ∈ order := by
    obtain ⟨_, hab, _⟩ := Relation.TransGen.head'_iff.mp hc
    exact h1.mem_iff.mpr (hn _ hab).1
  have := topological_induction (P := fun u => ¬ Relation.TransGen (fun a b => (a, b) ∈ edges) u u)
    order h2 (fun v hv => h3 v (h1.mem_iff.mp hv)) (by
      intro u _ H hu
      obtain ⟨w, hw, hr⟩ := Relation.TransGen.head'_iff.mp hu
      exact H w hw (h1.mem_iff.mpr (hn _ hw).2) (Relation.TransGen.tail' hr hw))
  exact this v hv hc

end Verif
