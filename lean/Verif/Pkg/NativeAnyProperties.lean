import Verif.Pkg.NativeAny
import Mathlib.Data.List.Perm.Basic
import Mathlib.Data.List.Nodup
/-
C78: native values as values of the type `any`.
-/
namespace Verif.Pkg.NativeAny

section
variable {V : Type}

/-! ### Specification -/

/-- The copy that a value is. -/
def Owned.copy : Owned → Nat
  | .native _ x => x
  | .any a => a.payload

/-- The type of a value. -/
def Owned.type : Owned → Nat
  | .native t _ => t
  | .any a => a.information

/-- What a program sees of a value: its type and its content. -/
def see (s : State V) (o : Owned) : Nat × Option V := (o.type, s.contents[o.copy]?)

/-- Every copy that was made is owned once or was dropped once, and nothing was used after it had been dropped. -/
def Balanced (p : State V × List Owned) : Prop :=
  (p.2.map Owned.copy ++ p.1.dropped).Perm (List.range p.1.contents.length) ∧ p.1.misused = false

/-! ### Ownership -/

theorem copies_erase {env : List Owned} {i : Nat} {o : Owned} (h : env[i]? = some o) :
    (env.map Owned.copy).Perm (o.copy :: (env.eraseIdx i).map Owned.copy) := by
  obtain ⟨hi, rfl⟩ := List.getElem?_eq_some_iff.mp h
  exact ((List.getElem_cons_eraseIdx_perm hi).map Owned.copy).symm

theorem Balanced.live {p : State V × List Owned} (h : Balanced p) {i : Nat} {o : Owned} (ho : p.2[i]? = some o) :
    o.copy ∉ p.1.dropped ∧ o.copy < p.1.contents.length := by
  have hn := h.1.nodup_iff.mpr List.nodup_range
  have hm : o.copy ∈ p.2.map Owned.copy := List.mem_map.mpr ⟨o, List.mem_of_getElem? ho, rfl⟩
  constructor
  · intro hd
    exact (List.nodup_append.mp hn).2.2 _ hm _ hd rfl
  · have := h.1.mem_iff.mp (List.mem_append_left p.1.dropped hm)
    exact List.mem_range.mp this

theorem balanced_add {s : State V} {env : List Owned} (h : Balanced (s, env)) {s' : State V} {o : Owned}
    (ho : o.copy = s.contents.length) (hl : s'.contents.length = s.contents.length + 1) (hd : s'.dropped = s.dropped)
    (hm : s'.misused = false) : Balanced (s', o :: env) := by
  refine ⟨?_, hm⟩
  simp only [List.map_cons, List.cons_append, hl, hd, ho, List.range_succ]
  exact ((h.1.cons _).trans (List.perm_append_singleton _ _).symm)

theorem balanced_move {s : State V} {env : List Owned} (h : Balanced (s, env)) {i : Nat} {o o' : Owned}
    (ho : env[i]? = some o) (hc : o'.copy = o.copy) : Balanced (s, o' :: env.eraseIdx i) := by
  refine ⟨?_, h.2⟩
  simp only [List.map_cons, hc]
  exact ((copies_erase ho).symm.append_right _).trans h.1

theorem balanced_drop {s : State V} {env : List Owned} (h : Balanced (s, env)) {i : Nat} {o : Owned}
    (ho : env[i]? = some o) : Balanced (dropValue s o.copy, env.eraseIdx i) := by
  refine ⟨?_, ?_⟩
  · simp only [dropValue]
    refine List.perm_middle.trans ?_
    exact ((copies_erase ho).symm.append_right _).trans h.1
  · have := (h.live ho).1
    have h2 := h.2
    simp_all [dropValue]

theorem balanced_clone {s : State V} {env : List Owned} (h : Balanced (s, env)) {i : Nat} {o o' : Owned}
    (ho : env[i]? = some o) (hc : o'.copy = s.contents.length) : Balanced ((cloneValue s o.copy).2, o' :: env) := by
  obtain ⟨h1, h2⟩ := h.live ho
  refine balanced_add h hc ?_ rfl ?_
  · simp only [cloneValue, List.length_append]
    rw [List.getElem?_eq_getElem h2]; rfl
  · have h3 := h.2
    simp_all [cloneValue]

theorem balanced_step {p : State V × List Owned} (h : Balanced p) (o : Operation V) : Balanced (step p.1 p.2 o) := by
  obtain ⟨s, env⟩ := p
  cases o with
  | create type v => exact balanced_add h rfl (by simp [create]) rfl h.2
  | wrap place =>
    simp only [step]
    split
    · rename_i type x ho; exact balanced_move h ho rfl
    · exact h
  | clone place =>
    simp only [step]
    split
    · rename_i type x ho; exact balanced_clone (o := .native type x) h ho rfl
    · rename_i a ho; exact balanced_clone (o := .any a) h ho rfl
    · exact h
  | drop place =>
    simp only [step]
    split
    · rename_i type x ho; exact balanced_drop (o := .native type x) h ho
    · rename_i a ho; exact balanced_drop (o := .any a) h ho
    · exact h
  | unwrap place type =>
    simp only [step]
    split
    · rename_i a ho
      by_cases ht : a.information = type
      · simp only [tryFrom, if_pos ht]; exact balanced_move (o := .any a) h ho rfl
      · simp only [tryFrom, if_neg ht]; exact balanced_drop (o := .any a) h ho
    · exact h
  | write place type v =>
    simp only [step]
    split
    · rename_i a ho
      by_cases ht : a.information = type
      · simp only [tryReference, if_pos ht]
        have h1 := (h.live ho).1
        refine ⟨by simpa [writeValue] using h.1, ?_⟩
        have h2 := h.2
        simp_all [writeValue, fromPayload, Owned.copy]
      · simp only [tryReference, if_neg ht]; exact h
    · exact h

/-- Whatever a program does, every copy of a native value is owned once or has been dropped once, and no copy is used after
it has been dropped. -/
theorem c78_dropped_once (history : List (Operation V)) : Balanced (run history initial) := by
  have key : ∀ (os : List (Operation V)) (p : State V × List Owned), Balanced p → Balanced (run os p) := by
    intro os
    induction os with
    | nil => exact fun p h => h
    | cons o os ih => exact fun p h => ih _ (balanced_step h o)
  exact key history initial ⟨List.Perm.refl _, rfl⟩

/-- When a program owns nothing any more, every copy that was made has been dropped, once. -/
theorem c78_no_leaks (history : List (Operation V)) (h : (run history initial).2 = []) :
    (run history (initial (V := V))).1.dropped.Perm (List.range (run history (initial (V := V))).1.contents.length) := by
  have := (c78_dropped_once history).1
  rw [h] at this
  exact this

/-! ### Contents -/

/-- A clone has the type and the content of the value, and other values are as before. -/
theorem c78_clones {history : List (Operation V)} {s : State V} {env : List Owned} (h : run history initial = (s, env))
    {place : Nat} {o : Owned} (ho : env[place]? = some o) :
    ∃ o' s', step s env (.clone place) = (s', o' :: env) ∧ see s' o' = see s o ∧
      ∀ (i : Nat) (p : Owned), env[i]? = some p → see s' p = see s p := by
  have hb : Balanced (s, env) := h ▸ c78_dropped_once history
  have hl := (hb.live ho).2
  have key : ∀ (i : Nat) (p : Owned), env[i]? = some p → see (cloneValue s o.copy).2 p = see s p := by
    intro i p hp
    have := (hb.live hp).2
    simp only [see, cloneValue]
    rw [List.getElem?_append_left this]
  have hnew : (cloneValue s o.copy).2.contents[s.contents.length]? = s.contents[o.copy]? := by
    simp only [cloneValue]
    rw [List.getElem?_append_right (Nat.le_refl _), Nat.sub_self, List.getElem?_eq_getElem hl]
    rfl
  cases o with
  | native type x =>
    refine ⟨.native type s.contents.length, (cloneValue s x).2, by simp only [step, ho]; rfl, ?_, key⟩
    simp only [see]; exact congrArg _ hnew
  | any a =>
    refine ⟨.any ⟨a.information, s.contents.length⟩, (cloneValue s a.payload).2, by simp only [step, ho]; rfl, ?_, key⟩
    simp only [see]; exact congrArg _ hnew

/-- A value that becomes an `any` keeps its type and its content. -/
theorem c78_wrapped (s : State V) (env : List Owned) {place type x : Nat} (ho : env[place]? = some (.native type x)) :
    ∃ o, step s env (.wrap place) = (s, o :: env.eraseIdx place) ∧ see s o = see s (.native type x) ∧
      ∃ a, o = .any a :=
  ⟨.any (fromNative type x), by simp only [step, ho], rfl, _, rfl⟩

/-- An `any` becomes a value of a type exactly if it was made of a value of the type; it keeps its content then, and is
dropped otherwise. -/
theorem c78_unwrapped (s : State V) (env : List Owned) {place : Nat} {a : Any} (ho : env[place]? = some (.any a))
    (type : Nat) :
    (a.information = type → ∃ x, step s env (.unwrap place type) = (s, .native type x :: env.eraseIdx place) ∧
      see s (.native type x) = see s (.any a)) ∧
    (a.information ≠ type → ∃ s', step s env (.unwrap place type) = (s', env.eraseIdx place) ∧
      s'.dropped = (Owned.any a).copy :: s.dropped ∧ s'.contents = s.contents) := by
  constructor
  · rintro rfl
    exact ⟨a.payload, by simp [step, ho, tryFrom, fromPayload], rfl⟩
  · intro ht
    refine ⟨dropAny s a, by simp only [step, ho, tryFrom, if_neg ht], rfl, rfl⟩

/-- What is written through a reference into an `any` of the type is its content then, and no other value changes; nothing
is written into one of another type. -/
theorem c78_references {history : List (Operation V)} {s : State V} {env : List Owned} (h : run history initial = (s, env))
    {place : Nat} {a : Any} (ho : env[place]? = some (.any a)) (type : Nat) (v : V) :
    (a.information = type → ∃ s', step s env (.write place type v) = (s', env) ∧ see s' (.any a) = (type, some v) ∧
      ∀ (i : Nat) (p : Owned), env[i]? = some p → i ≠ place → see s' p = see s p) ∧
    (a.information ≠ type → step s env (.write place type v) = (s, env)) := by
  have hb : Balanced (s, env) := h ▸ c78_dropped_once history
  have hl := (hb.live ho).2
  constructor
  · rintro rfl
    refine ⟨writeValue s a.payload v, by simp [step, ho, tryReference, fromPayload], ?_, ?_⟩
    · simp only [see, writeValue, Owned.copy, Owned.type]
      simp only [Owned.copy] at hl
      rw [List.getElem?_set_self hl]
    · intro i p hp hne
      simp only [see, writeValue]
      rw [List.getElem?_set_ne]
      intro heq
      have hn : (env.map Owned.copy).Nodup := (List.nodup_append.mp (hb.1.nodup_iff.mpr List.nodup_range)).1
      obtain ⟨h1, h1'⟩ := List.getElem?_eq_some_iff.mp hp
      obtain ⟨h2, h2'⟩ := List.getElem?_eq_some_iff.mp ho
      have := (List.Nodup.getElem_inj_iff hn (hi := by simpa using h1) (hj := by simpa using h2)).mp (by
        rw [List.getElem_map, List.getElem_map, h1', h2']; exact heq.symm)
      exact hne this
  · intro ht
    simp only [step, ho, tryReference, if_neg ht]

end

/-! ### Examples -/

/-- A value is made, wrapped, cloned, taken out as another type and dropped. -/
example : run [.create 7 "a", .wrap 0, .clone 0, .unwrap 0 7, .write 1 7 "b", .unwrap 1 8, .drop 0] initial =
    (⟨["b", "a"], [1, 0], false⟩, []) := by decide +kernel

example : (run [.create 7 "a", .wrap 0, .clone 0] initial).2 = [.any ⟨7, 1⟩, .any ⟨7, 0⟩] := by decide +kernel

end Verif.Pkg.NativeAny
