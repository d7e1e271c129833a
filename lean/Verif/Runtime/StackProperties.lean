import Verif.Runtime.Stack

/-!
# C33: the continuation stack
-/
namespace Verif.Runtime.Stack

theorem le_pad (n : Nat) : n ≤ pad n := by
  unfold pad alignment; omega

theorem pad_dvd (n : Nat) : 8 ∣ pad n := ⟨_, Nat.mul_comm _ _⟩

theorem grow_capacity (junk : Nat → Byte) (s : Stack) : (s.grow junk).capacity = 2 * s.capacity := by
  simp [Stack.grow, Stack.capacity]; omega

/-- The abstraction: the stack's bytes below `size` are the values, each padded. -/
inductive Holds (bytes : List Byte) : Nat → List (List Byte) → Prop
  | nil : Holds bytes 0 []
  | cons {n : Nat} {st : List (List Byte)} {v : List Byte} : Holds bytes n st → n + pad v.length ≤ bytes.length →
      (bytes.drop n).take v.length = v → Holds bytes (n + pad v.length) (v :: st)

theorem Holds.le {b : List Byte} {n : Nat} {st : List (List Byte)} (h : Holds b n st) : n ≤ b.length := by
  cases h with
  | nil => omega
  | cons _ h _ => exact h

/-- Only the bytes below `size` matter. -/
theorem Holds.congr {b b' : List Byte} {n : Nat} {st : List (List Byte)} (h : Holds b n st)
    (hb : b.take n = b'.take n) (hl : n ≤ b'.length) : Holds b' n st := by
  induction h with
  | nil => exact .nil
  | @cons m st v hm hle hv ih =>
    have h1 : b.take m = b'.take m := by
      have := congrArg (List.take m) hb
      rwa [List.take_take, List.take_take, Nat.min_eq_left (Nat.le_add_right _ _)] at this
    refine .cons (ih h1 (by omega)) hl ?_
    have h2 := congrArg (List.drop m) hb
    rw [List.drop_take, List.drop_take] at h2
    have h3 := congrArg (List.take v.length) h2
    rw [List.take_take, List.take_take] at h3
    have := le_pad v.length
    rw [Nat.min_eq_left (by omega)] at h3
    rw [← h3, hv]

theorem reserve_spec (junk : Nat → Byte) {s s' : Stack} {n fuel : Nat} (h : s.reserve junk n fuel = some s') :
    s'.size = s.size ∧ s.size + n ≤ s'.capacity ∧ (∃ t, s'.bytes = s.bytes ++ t) := by
  induction fuel generalizing s with
  | zero => cases h
  | succ f ih =>
    simp only [Stack.reserve] at h
    split at h
    · obtain ⟨h1, h2, t, h3⟩ := ih h
      exact ⟨h1, h2, _, by rw [h3]; simp only [Stack.grow, List.append_assoc]; rfl⟩
    · cases h; exact ⟨rfl, by omega, [], by simp⟩

theorem push_holds (junk : Nat → Byte) {s s' : Stack} {fuel : Nat} {v : List Byte} {st : List (List Byte)}
    (hs : Holds s.bytes s.size st) (h : s.push junk fuel v = some s') :
    Holds s'.bytes s'.size (v :: st) := by
  simp only [Stack.push, Option.map_eq_some_iff] at h
  obtain ⟨s1, hr, rfl⟩ := h
  obtain ⟨h1, h2, t, h3⟩ := reserve_spec junk hr
  have hp := le_pad v.length
  have hle := hs.le
  have hlen : s1.size ≤ s1.bytes.length := by rw [h1, h3]; simp; omega
  have hcap : s.size + pad v.length ≤ s1.bytes.length := h2
  have hw : (s1.write v).bytes.length = s1.bytes.length := by
    simp only [Stack.write, List.length_append, List.length_take, List.length_drop]; omega
  have htake : (s1.write v).bytes.take s1.size = s1.bytes.take s1.size := by
    simp only [Stack.write, List.append_assoc]
    rw [List.take_append_of_le_length (by simp; omega), List.take_take, Nat.min_self]
  show Holds (s1.write v).bytes (s1.size + pad v.length) (v :: st)
  refine .cons (hs.congr (n := s.size) ?_ ?_ |> (h1 ▸ ·)) (by rw [hw, h1]; exact hcap) ?_
  · rw [← h1, htake, h3, h1, List.take_append_of_le_length hle]
  · rw [hw]; omega
  · simp only [Stack.write, List.append_assoc]
    rw [List.drop_append_of_le_length (by simp; omega), List.drop_eq_nil_of_le (by rw [List.length_take]; omega), List.nil_append,
      List.take_append_of_le_length (by omega), List.take_length]

/-- Growing stops when the capacity is positive. -/
theorem reserve_some (junk : Nat → Byte) (s : Stack) (n fuel : Nat) (hc : 0 < s.capacity)
    (hf : s.size + n < s.capacity + fuel) (hf0 : 0 < fuel) :
    ∃ s', s.reserve junk n fuel = some s' ∧ s.capacity ≤ s'.capacity := by
  induction fuel generalizing s with
  | zero => omega
  | succ f ih =>
    simp only [Stack.reserve]
    split
    · have hg := grow_capacity junk s
      have hsz : (s.grow junk).size = s.size := rfl
      obtain ⟨s', h1, h2⟩ := ih (s.grow junk) (by omega) (by omega) (by omega)
      exact ⟨s', h1, by omega⟩
    · exact ⟨s, rfl, Nat.le_refl _⟩

theorem push_some (junk : Nat → Byte) (s : Stack) (v : List Byte) {fuel : Nat} (hc : 0 < s.capacity)
    (hf : s.size + pad v.length < fuel) :
    ∃ s', s.push junk fuel v = some s' ∧ 0 < s'.capacity ∧ s'.size = s.size + pad v.length := by
  obtain ⟨s1, h1, h2⟩ := reserve_some junk s (pad v.length) fuel hc (by omega) (by omega)
  obtain ⟨h3, h4, _⟩ := reserve_spec junk h1
  refine ⟨{ s1.write v with size := s1.size + pad v.length }, by simp [Stack.push, h1], ?_, by simp [h3]⟩
  have hp := le_pad v.length
  have h5 : s.size + pad v.length ≤ s1.bytes.length := h4
  have h6 : s.capacity ≤ s1.bytes.length := h2
  simp only [Stack.capacity, Stack.write, List.length_append, List.length_take, List.length_drop]
  omega

theorem pop_holds {s : Stack} {v : List Byte} {st : List (List Byte)} (h : Holds s.bytes s.size (v :: st)) :
    ∃ s', s.pop v.length = some (v, s') ∧ Holds s'.bytes s'.size st ∧ s'.capacity = s.capacity := by
  obtain ⟨bytes, size⟩ := s
  simp only at h
  cases h with
  | @cons n _ _ hn hle hv =>
    refine ⟨⟨bytes, n⟩, ?_, hn, rfl⟩
    simp only [Stack.pop, Nat.le_add_left, if_true, Nat.add_sub_cancel, hv]

/-- The bytes pushed by a history. -/
def pushed : List Op → Nat
  | [] => 0
  | .push v :: os => pad v.length + pushed os
  | .pop _ :: os => pushed os

theorem run_refines (junk : Nat → Byte) {fuel : Nat} (os : List Op) (s : Stack) (st : List (List Byte))
    (hs : Holds s.bytes s.size st) (hc : 0 < s.capacity) (hf : s.size + pushed os < fuel)
    {vs st' : List (List Byte)} (h : spec st os = some (vs, st')) :
    ∃ s', s.run junk fuel os = some (vs, s') ∧ Holds s'.bytes s'.size st' ∧ 8 ∣ s'.size := by
  have hal : ∀ {n st}, Holds s.bytes n st → 8 ∣ n := by
    intro n st h
    induction h with
    | nil => exact ⟨0, rfl⟩
    | cons _ _ _ ih => exact Nat.dvd_add ih (pad_dvd _)
  induction os generalizing s st vs with
  | nil =>
    simp only [spec, Option.some.injEq, Prod.mk.injEq] at h
    obtain ⟨rfl, rfl⟩ := h
    exact ⟨s, rfl, hs, hal hs⟩
  | cons o os ih =>
    cases o with
    | push v =>
      simp only [spec] at h
      simp only [pushed] at hf
      obtain ⟨s1, h1, h2, h3⟩ := push_some junk s v hc (fuel := fuel) (by omega)
      have hs1 := push_holds junk hs h1
      obtain ⟨s', h4, h5⟩ := ih s1 (v :: st) hs1 h2 (by omega) h (by
        intro n st h
        induction h with
        | nil => exact ⟨0, rfl⟩
        | cons _ _ _ ih => exact Nat.dvd_add ih (pad_dvd _))
      exact ⟨s', by simp [Stack.run, h1, h4], h5⟩
    | pop n =>
      cases st with
      | nil => simp [spec] at h
      | cons v st =>
        simp only [spec] at h
        split at h
        · rename_i hn
          subst hn
          rw [Option.map_eq_some_iff] at h
          obtain ⟨⟨vs1, st1⟩, h1, h2⟩ := h
          simp only [Prod.mk.injEq] at h2
          obtain ⟨rfl, rfl⟩ := h2
          obtain ⟨s1, h3, h4, h5⟩ := pop_holds hs
          have h6 : s1.size ≤ s.size := by
            simp only [Stack.pop] at h3
            split at h3
            · simp only [Option.some.injEq, Prod.mk.injEq] at h3
              rw [← h3.2]; simp
            · cases h3
          obtain ⟨s', h7, h8⟩ := ih s1 st h4 (by rw [h5]; exact hc) (by simp only [pushed] at hf; omega) h1 (by
            intro n st h
            induction h with
            | nil => exact ⟨0, rfl⟩
            | cons _ _ _ ih => exact Nat.dvd_add ih (pad_dvd _))
          exact ⟨s', by simp [Stack.run, h3, h7], h8⟩
        · cases h

/-- **C33**: for every positive initial capacity, every content of fresh memory and every history of pushes and
pops in which values are popped with the type they were pushed with, the stack's operations all end, the values
popped are those of a stack, and the stack stays aligned and within its buffer. -/
theorem c33_stack_lifo (junk : Nat → Byte) (capacity : Nat) (hc : 0 < capacity) (os : List Op)
    {vs st : List (List Byte)} (h : spec [] os = some (vs, st)) :
    ∃ fuel s, (Stack.new junk capacity).run junk fuel os = some (vs, s) ∧
      s.size ≤ s.capacity ∧ alignment ∣ s.size ∧ s.size = (st.map fun v => pad v.length).sum := by
  have hcap : 0 < (Stack.new junk capacity).capacity := by
    have := le_pad capacity
    simp only [Stack.capacity, Stack.new, List.length_map, List.length_range]; omega
  obtain ⟨s, h1, h2, h3⟩ := run_refines junk (fuel := pushed os + 1) os (Stack.new junk capacity) [] .nil hcap
    (by simp [Stack.new]) h
  refine ⟨_, s, h1, h2.le, h3, ?_⟩
  have : ∀ {b : List Byte} {n : Nat} {st : List (List Byte)}, Holds b n st → n = (st.map fun v => pad v.length).sum := by
    intro b n st h
    induction h with
    | nil => rfl
    | cons _ _ _ ih => simp only [List.map_cons, List.sum_cons, ← ih]; omega
  exact this h2

/-- More fuel changes nothing. -/
theorem reserve_mono (junk : Nat → Byte) {s s' : Stack} {n f g : Nat} (hfg : f ≤ g) (h : s.reserve junk n f = some s') :
    s.reserve junk n g = some s' := by
  induction f generalizing s g with
  | zero => cases h
  | succ f ih =>
    cases g with
    | zero => omega
    | succ g =>
      simp only [Stack.reserve] at h ⊢
      split at h
      · rename_i hh; rw [if_pos hh]; exact ih (by omega) h
      · rename_i hh; rw [if_neg hh]; exact h

/-- A stack of capacity zero never grows: pushing a value of positive size does not end. -/
theorem c33_zero_capacity_diverges (junk : Nat → Byte) (v : List Byte) (hv : v ≠ []) (fuel : Nat) :
    (Stack.new junk 0).push junk fuel v = none := by
  have hp := le_pad v.length
  have hl : 0 < v.length := List.length_pos_iff.2 hv
  have : ∀ fuel (s : Stack), s.bytes = [] → s.size = 0 → s.reserve junk (pad v.length) fuel = none := by
    intro fuel
    induction fuel with
    | zero => intro s _ _; rfl
    | succ f ih =>
      intro s h1 h2
      simp only [Stack.reserve, Stack.capacity, h1, h2, List.length_nil, Nat.zero_add, gt_iff_lt]
      rw [if_pos (by omega)]
      exact ih _ (by simp [Stack.grow, h1, Stack.capacity]) (by simp [Stack.grow, h2])
  simp only [Stack.push]
  rw [this fuel _ (by simp [Stack.new, pad, alignment]) rfl]
  rfl

/-- A history that makes a stack of one byte grow twice and pops values of different sizes. -/
example : ∃ vs st, spec [] [.push [1], .push [1, 2, 3, 4, 5, 6, 7, 8, 9], .push [], .pop 0, .pop 9, .push [7, 7], .pop 2] =
    some (vs, st) ∧ vs = [[], [1, 2, 3, 4, 5, 6, 7, 8, 9], [7, 7]] ∧ st = [[1]] := ⟨_, _, rfl, rfl, rfl⟩

end Verif.Runtime.Stack
