import Verif.Core.NumbersRange
/-
C73: what does not hold, and examples that the hypotheses of the theorems can be met.
-/
namespace Verif.Core.Numbers

/-! ### Counterexamples -/

/-- Shifts by 64 bits do nothing, while shifts by 63 bits leave only one bit. -/
theorem c73_shift_by_64 : leftShift (toInteger64 (literal 1)) (literal 64) = toInteger64 (literal 1) ∧
    rightShift (toInteger64 (literal 1)) (literal 64) = toInteger64 (literal 1) ∧
    rightShift (toInteger64 (literal 1)) (literal 63) = toInteger64 (literal 0) := by decide +kernel

/-- 64-bit integers are numbers of the language, but `==` does not compare them as integers: zero and `2 ^ 63` are
the same, and the complement of zero is not the same as itself. -/
theorem c73_equality_of_64_bit_integers :
    equal (toInteger64 (literal 0)) (toInteger64 (literal (2 ^ 63))) = true ∧
    toInteger64 (literal 0) ≠ toInteger64 (literal (2 ^ 63)) ∧
    equal (bitNot (toInteger64 (literal 0))) (bitNot (toInteger64 (literal 0))) = false := by decide +kernel

/-- The complement of a 64-bit integer is not converted back into itself: it is rounded. -/
theorem c73_complement_is_rounded :
    toInteger64 (fromInteger64 (bitNot (toInteger64 (literal 5)))) ≠ bitNot (toInteger64 (literal 5)) := by
  decide +kernel

/-- The order of the arguments of `Maximum` makes a difference for zeros. -/
theorem c73_maximum_of_zeros :
    maximum (literal 0) (pattern true 0) = pattern true 0 ∧ maximum (pattern true 0) (literal 0) = literal 0 ∧
    pattern true 0 ≠ literal 0 := by decide +kernel

/-- `Range(9007199254740992, 9007199254740992)` never ends. -/
theorem c73_range_of_one_number_is_endless : Endless rangeNode (literal (2 ^ 53), literal (2 ^ 53)) :=
  c73_large_range_is_endless (isInteger_literal (by norm_num)) (by norm_num) le_rfl
    (isInteger_literal (by norm_num)).notNan (by rw [(isInteger_literal (n := 2 ^ 53) (by norm_num)).2])

/-- Sums depend on the order of the elements. -/
theorem c73_sum_order : sum [literal (2 ^ 53), literal 1, literal (-2 ^ 53)] = literal 0 ∧
    sum [literal (2 ^ 53), literal (-2 ^ 53), literal 1] = literal 1 := by decide +kernel

/-! ### Examples -/

/-- The model is that of the format: some patterns. -/
example : literal 1 = 0x3FF0000000000000#64 ∧ literal (-2) = 0xC000000000000000#64 ∧
    literal 42 = 0x4045000000000000#64 ∧ add (literal 42) (literal (-42)) = 0#64 ∧
    add 0x3FB999999999999A#64 0x3FC999999999999A#64 = 0x3FD3333333333334#64 ∧
    add infinity (literal 1) = infinity ∧ fromU64 (BitVec.allOnes 64) = 0x43F0000000000000#64 := by decide +kernel

example : fromInteger64 (toInteger64 (literal 42)) = literal 42 :=
  c73_integers_round_trip (n := 42) (isInteger_literal (by norm_num)) (by norm_num) (by unfold IsNegativeZero; decide +kernel)

example : IsInteger (fromInteger64 (bitAnd (toInteger64 (literal 12)) (toInteger64 (literal 10)))) 8 :=
  (c73_bitwise (m := 12) (n := 10) (isInteger_literal (by norm_num)) (isInteger_literal (by norm_num)) (by norm_num)
    (by norm_num)).1

example : IsInteger (fromInteger64 (leftShift (toInteger64 (literal 3)) (literal 4))) 48 ∧
    IsInteger (fromInteger64 (rightShift (toInteger64 (literal 48)) (literal 4))) 3 :=
  ⟨(c73_shifts (m := 3) (n := 4) (isInteger_literal (by norm_num)) (isInteger_literal (by norm_num)) (by norm_num)
    (by norm_num)).1 (by norm_num),
   (c73_shifts (m := 48) (n := 4) (isInteger_literal (by norm_num)) (isInteger_literal (by norm_num)) (by norm_num)
    (by norm_num)).2⟩

/-- `1.5` is converted to one: it is at least one and less than two. -/
example : 1 ≤ (toInteger64 0x3FF8000000000000#64).toNat ∧ ¬ 2 ≤ (toInteger64 0x3FF8000000000000#64).toNat := by
  decide +kernel

/-- `Range(-1, 1)`. -/
example : ∃ xs, Elements rangeNode (literal (-1), literal 1) xs ∧ List.Forall₂ IsInteger xs [-1, 0, 1] := by
  have hy : IsInteger (literal 1) 1 := isInteger_literal (by norm_num)
  have h := c73_integer_range (x := literal (-1)) (y := literal 1) (a := -1) (isInteger_literal (by norm_num))
    (by norm_num) hy.notNan (by rw [hy.2]; exact mul_lt_mul_of_pos_right (by norm_num) one_pos')
  rw [hy.2, Int.mul_ediv_cancel _ one_pos'.ne'] at h
  exact h

/-- `Range(0.5, 3)`. -/
example : ∃ xs, Elements rangeNode (0x3FE0000000000000#64, literal 3) xs ∧ xs.head? = some 0x3FE0000000000000#64 := by
  have hx : units 0x3FE0000000000000#64 = 2 ^ 1073 := by
    unfold units
    rw [show code 0x3FE0000000000000#64 = 1021 * 2 ^ 52 + 2 ^ 52 + 0 * 2 ^ 52 by decide +kernel]
    decide +kernel
  have hy : IsInteger (literal 3) 3 := isInteger_literal (by norm_num)
  have h3 : (one : Int) = 2 * 2 ^ 1073 := by
    unfold one; rw [← pow_succ']; exact Nat.cast_pow 2 1074
  have hp : (0 : Int) < 2 ^ 1073 := by positivity
  generalize (2 : Int) ^ 1073 = h at *
  obtain ⟨xs, h1, _, _, h2⟩ := c73_range_ends (x := 0x3FE0000000000000#64) (y := literal 3) (by decide +kernel)
    (by rw [hx, h3]; linarith) hy.notNan (by rw [hy.2]; linarith [one_pos'])
  exact ⟨xs, h1, h2 (by rw [hx, hy.2, h3]; linarith)⟩

/-- `Sum(Sequence(100))`. -/
example : ∃ xs, Elements rangeNode (literal 1, literal 100) xs ∧ IsInteger (sum xs) 5050 :=
  c73_sum_of_sequence (n := 100) (isInteger_literal (by norm_num)) (by norm_num)

end Verif.Core.Numbers
