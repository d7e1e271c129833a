import Verif.Runtime.Graph
import Mathlib.Data.List.ReduceOption

/-
Counting references in the heap of `Verif.Runtime.Graph`.
-/
namespace Verif.Runtime.Graph

variable {T : Type} [DecidableEq T]

/-- The references to `b` in fields of blocks. -/
def fieldRefs (heap : List Block) (b : Addr) : Nat := (heap.map fun B => B.fields.count (some b)).sum

/-- The references to `b` in variables and tasks of threads. -/
def heldRefs (held : Multiset (T × Addr)) (b : Addr) : Nat := held.countP fun p => p.2 = b

theorem heap_set {heap : List Block} {a : Addr} {A : Block} (h : heap[a]? = some A) (A' : Block) (x : Addr) :
    (heap.set a A')[x]? = if x = a then some A' else heap[x]? := by
  have hl : a < heap.length := by
    rcases Nat.lt_or_ge a heap.length with h' | h'
    · exact h'
    · rw [List.getElem?_eq_none h'] at h; cases h
  rw [List.getElem?_set]
  by_cases hx : x = a
  · subst hx; simp [hl]
  · rw [if_neg (Ne.symm hx), if_neg hx]

theorem heap_append (heap : List Block) (A : Block) (x : Addr) :
    (heap ++ [A])[x]? = if x = heap.length then some A else heap[x]? := by
  by_cases hx : x = heap.length
  · subst hx; simp
  · rw [if_neg hx]
    rcases Nat.lt_or_ge x heap.length with h | h
    · rw [List.getElem?_append_left h]
    · have : heap.length < x := Nat.lt_of_le_of_ne h (Ne.symm hx)
      rw [List.getElem?_eq_none (by rw [List.length_append, List.length_singleton]; exact this), List.getElem?_eq_none h]

theorem fieldRefs_set {heap : List Block} {a : Addr} {A : Block} (h : heap[a]? = some A) (A' : Block) (b : Addr) :
    fieldRefs (heap.set a A') b + A.fields.count (some b) = fieldRefs heap b + A'.fields.count (some b) := by
  induction heap generalizing a with
  | nil => simp at h
  | cons B heap ih =>
    cases a with
    | zero =>
      simp only [List.getElem?_cons_zero, Option.some.injEq] at h
      subst h
      simp only [fieldRefs, List.set_cons_zero, List.map_cons, List.sum_cons]
      omega
    | succ a =>
      simp only [List.getElem?_cons_succ] at h
      have := ih h
      simp only [fieldRefs, List.set_cons_succ, List.map_cons, List.sum_cons] at this ⊢
      omega

theorem fieldRefs_append (heap : List Block) (A : Block) (b : Addr) :
    fieldRefs (heap ++ [A]) b = fieldRefs heap b + A.fields.count (some b) := by
  simp [fieldRefs]

theorem fieldRefs_pos {heap : List Block} {b : Addr} (h : 0 < fieldRefs heap b) :
    ∃ (a : Addr) (A : Block), heap[a]? = some A ∧ some b ∈ A.fields := by
  induction heap with
  | nil => simp [fieldRefs] at h
  | cons B heap ih =>
    by_cases hB : some b ∈ B.fields
    · exact ⟨0, B, by simp, hB⟩
    · have h0 : B.fields.count (some b) = 0 := List.count_eq_zero.2 hB
      have : 0 < fieldRefs heap b := by
        simp only [fieldRefs, List.map_cons, List.sum_cons, h0, Nat.zero_add] at h ⊢; exact h
      obtain ⟨a, A, ha, hA⟩ := ih this
      exact ⟨a + 1, A, by simpa using ha, hA⟩

theorem fieldRefs_of_mem {heap : List Block} {a b : Addr} {A : Block} (h : heap[a]? = some A) (hm : some b ∈ A.fields) :
    0 < fieldRefs heap b := by
  induction heap generalizing a with
  | nil => simp at h
  | cons B heap ih =>
    cases a with
    | zero =>
      simp only [List.getElem?_cons_zero, Option.some.injEq] at h
      subst h
      have := List.count_pos_iff.2 hm
      simp only [fieldRefs, List.map_cons, List.sum_cons]
      omega
    | succ a =>
      simp only [List.getElem?_cons_succ] at h
      have := ih h
      simp only [fieldRefs, List.map_cons, List.sum_cons] at this ⊢
      omega

@[simp] theorem heldRefs_cons (held : Multiset (T × Addr)) (p : T × Addr) (b : Addr) :
    heldRefs (p ::ₘ held) b = heldRefs held b + if p.2 = b then 1 else 0 := by
  simp only [heldRefs]
  by_cases h : p.2 = b
  · rw [Multiset.countP_cons_of_pos (p := fun q : T × Addr => q.2 = b) _ h, if_pos h]
  · rw [Multiset.countP_cons_of_neg (p := fun q : T × Addr => q.2 = b) _ h, if_neg h]; rfl

@[simp] theorem heldRefs_add (a c : Multiset (T × Addr)) (b : Addr) :
    heldRefs (a + c) b = heldRefs a b + heldRefs c b := by simp [heldRefs, Multiset.countP_add]

theorem heldRefs_erase {held : Multiset (T × Addr)} {p : T × Addr} (h : p ∈ held) (b : Addr) :
    heldRefs (held.erase p) b + (if p.2 = b then 1 else 0) = heldRefs held b := by
  conv => rhs; rw [← Multiset.cons_erase h]
  rw [heldRefs_cons]

theorem heldRefs_sub {held R : Multiset (T × Addr)} (h : R ≤ held) (b : Addr) :
    heldRefs (held - R) b + heldRefs R b = heldRefs held b := by
  rw [← heldRefs_add, Multiset.sub_add_cancel h]

theorem heldRefs_references (t : T) (fs : List (Option Addr)) (b : Addr) :
    heldRefs (references t fs) b = fs.count (some b) := by
  induction fs with
  | nil => rfl
  | cons f fs ih =>
    cases f with
    | none =>
      have : references t (none :: fs) = references t fs := rfl
      rw [this, ih]; simp
    | some f =>
      have : references t (some f :: fs) = (t, f) ::ₘ references t fs := by
        simp [references, List.reduceOption_cons_of_some]
      rw [this, heldRefs_cons, ih, List.count_cons]
      simp

theorem mem_references {t : T} {fs : List (Option Addr)} {p : T × Addr} :
    p ∈ references t fs ↔ p.1 = t ∧ some p.2 ∈ fs := by
  obtain ⟨t', b⟩ := p
  simp only [references, Multiset.mem_coe, List.mem_map, Prod.mk.injEq]
  constructor
  · rintro ⟨f, hf, rfl, rfl⟩
    exact ⟨rfl, List.reduceOption_mem_iff.1 hf⟩
  · rintro ⟨rfl, h⟩
    exact ⟨b, List.reduceOption_mem_iff.2 h, rfl, rfl⟩

theorem heldRefs_pos {held : Multiset (T × Addr)} {t : T} {b : Addr} (h : (t, b) ∈ held) : 0 < heldRefs held b :=
  Multiset.countP_pos.2 ⟨_, h, rfl⟩

theorem exists_held {held : Multiset (T × Addr)} {b : Addr} (h : 0 < heldRefs held b) : ∃ t, (t, b) ∈ held := by
  obtain ⟨⟨t, x⟩, hp, hx⟩ := Multiset.countP_pos.1 h
  exact ⟨t, by simp only at hx; exact hx ▸ hp⟩

/-- If there is one reference to `b`, it is the one we know. -/
theorem held_unique {held : Multiset (T × Addr)} {t t' : T} {b : Addr} (h : (t, b) ∈ held) (h' : (t', b) ∈ held)
    (h1 : heldRefs held b ≤ 1) : t' = t := by
  by_cases he : t' = t
  · exact he
  · have hm : (t', b) ∈ held.erase (t, b) := (Multiset.mem_erase_of_ne (by intro e; exact he (Prod.mk.inj e).1)).2 h'
    have := heldRefs_erase h b
    have := heldRefs_pos hm
    simp only [if_true] at *
    omega

/-- The references a task needs. -/
def Task.needs : Task → List Addr
  | .drop b => [b]
  | .dropLoaded b _ => [b]
  | .update b _ g => [b, g]
  | .store b _ g => [b, g]
  | _ => []

def needsOf (t : T) (ks : List Task) : Multiset (T × Addr) :=
  (((ks.flatMap Task.needs).map fun b => (t, b) : List (T × Addr)) : Multiset (T × Addr))

theorem needsOf_cons (t : T) (k : Task) (ks : List Task) :
    needsOf t (k :: ks) = ((k.needs.map fun b => (t, b) : List (T × Addr)) : Multiset (T × Addr)) + needsOf t ks := by
  simp [needsOf]

theorem needsOf_append (t : T) (ks ks' : List Task) : needsOf t (ks ++ ks') = needsOf t ks + needsOf t ks' := by
  simp [needsOf]

@[simp] theorem needsOf_nil (t : T) : needsOf t [] = 0 := rfl

theorem needsOf_drops (t : T) (fs : List (Option Addr)) :
    needsOf t (fs.reduceOption.map Task.drop) = references t fs := by
  have : ∀ l : List Addr, (l.map Task.drop).flatMap Task.needs = l := by
    intro l; induction l with
    | nil => rfl
    | cons a l ih => rw [List.map_cons, List.flatMap_cons, ih]; rfl
  simp [needsOf, references, this]

theorem mem_needsOf {t t' : T} {b : Addr} {ks : List Task} (h : (t', b) ∈ needsOf t ks) : t' = t := by
  simp only [needsOf, Multiset.mem_coe, List.mem_map, Prod.mk.injEq] at h
  obtain ⟨_, _, h, _⟩ := h
  exact h.symm

theorem le_erase_of {A B : Multiset (T × Addr)} {x : T × Addr} (h : A ≤ B) (hx : x ∉ A) : A ≤ B.erase x := by
  have := Multiset.erase_le_erase x h
  rwa [Multiset.erase_of_notMem hx] at this

theorem le_sub_of {A B R : Multiset (T × Addr)} (h : A ≤ B) (hx : ∀ x ∈ R, x ∉ A) : A ≤ B - R := by
  rw [Multiset.le_iff_count]
  intro x
  rw [Multiset.count_sub]
  by_cases hr : x ∈ R
  · rw [Multiset.count_eq_zero_of_notMem (hx x hr)]; omega
  · rw [Multiset.count_eq_zero_of_notMem hr]
    have := Multiset.le_iff_count.1 h x
    omega

end Verif.Runtime.Graph
