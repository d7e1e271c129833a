import Verif.Core.Numbers
import Mathlib.Tactic.Ring
import Mathlib.Tactic.Linarith
/-
Lemmas about the model of numbers.
-/
namespace Verif.Core.Numbers

theorem one_pos : 0 < one := Nat.pos_of_ne_zero (by simp [one])

theorem magnitude_infinity : magnitude 52 infinityCode = 2 ^ 2098 := by
  have h : infinityCode = 2046 * 2 ^ 52 + 2 ^ 52 := by simp [infinityCode]
  rw [h, magnitude_code (by norm_num) (.inr le_rfl), ← pow_add]

theorem msb_iff (x : Number) : x.msb = decide (2 ^ 63 ≤ x.toNat) := BitVec.msb_eq_decide x

theorem pattern_self (x : Number) : pattern x.msb (code x) = x := by
  apply BitVec.eq_of_toNat_eq
  have := x.isLt
  simp only [pattern, code, BitVec.toNat_ofNat, msb_iff]
  by_cases h : 2 ^ 63 ≤ x.toNat
  · rw [if_pos (by simpa using h)]; omega
  · rw [if_neg (by simpa using h)]; omega

theorem pattern_toNat {s : Bool} {c : Nat} (h : c < 2 ^ 63) :
    (pattern s c).toNat = (if s then 2 ^ 63 else 0) + c := by
  simp only [pattern, BitVec.toNat_ofNat]
  cases s <;> simp <;> omega

theorem code_pattern {s : Bool} {c : Nat} (h : c < 2 ^ 63) : code (pattern s c) = c := by
  simp only [code, pattern_toNat h]
  cases s <;> simp <;> omega

theorem msb_pattern {s : Bool} {c : Nat} (h : c < 2 ^ 63) : (pattern s c).msb = s := by
  rw [msb_iff, pattern_toNat h]
  cases s <;> simp <;> omega

theorem infinityCode_lt : infinityCode < 2 ^ 63 := by simp [infinityCode]

theorem magnitude_pos {p b : Nat} (h : 0 < b) : 0 < magnitude p b := by
  have := magnitude_lt (p := p) h
  omega

theorem magnitude_zero (p : Nat) : magnitude p 0 = 0 := by simp [magnitude]

theorem magnitude_eq_zero {p b : Nat} : magnitude p b = 0 ↔ b = 0 := by
  constructor
  · intro h; by_contra hb; have := magnitude_pos (p := p) (Nat.pos_of_ne_zero hb); omega
  · rintro rfl; exact magnitude_zero p

theorem units_natAbs (x : Number) : (units x).natAbs = magnitude 52 (code x) := by
  unfold units; split <;> simp

/-- Numbers other than zero are told apart by their values. -/
theorem eq_of_units {x y : Number} (h : units x = units y) (h0 : units x ≠ 0) : x = y := by
  have h1 := units_natAbs x
  have h2 := units_natAbs y
  rw [h] at h1
  have h3 : code x = code y := magnitude_injective (h1.symm.trans h2)
  have h4 : x.msb = y.msb := by
    unfold units at h h0
    rw [h3] at h h0
    cases hx : x.msb <;> cases hy : y.msb <;> simp [hx, hy] at h h0 ⊢ <;> omega
  rw [← pattern_self x, ← pattern_self y, h3, h4]

theorem code_ofUnits (n : Int) : code (ofUnits n) = min (roundCode 52 n.natAbs) infinityCode :=
  code_pattern (lt_of_le_of_lt (Nat.min_le_right _ _) infinityCode_lt)

theorem msb_ofUnits (n : Int) : (ofUnits n).msb = decide (n < 0) :=
  msb_pattern (lt_of_le_of_lt (Nat.min_le_right _ _) infinityCode_lt)

theorem not_isNan_ofUnits (n : Int) : isNan (ofUnits n) = false := by
  simp [isNan, code_ofUnits]

theorem isFinite_iff {x : Number} : isFinite x = true ↔ (units x).natAbs < 2 ^ 2098 := by
  rw [units_natAbs, ← magnitude_infinity, magnitude_lt_iff]
  simp [isFinite]

theorem not_isNan_of_isFinite {x : Number} (h : isFinite x = true) : isNan x = false := by
  simp [isFinite, isNan] at *
  omega

theorem not_isNan_iff {x : Number} : isNan x = false ↔ (units x).natAbs ≤ 2 ^ 2098 := by
  rw [units_natAbs, ← magnitude_infinity, magnitude_le_iff]
  simp [isNan]

/-- Rounding by order: a number at least as large as what is rounded is at least as large as the result. -/
theorem units_ofUnits_le {n : Int} {x : Number} (hx : isNan x = false) (h : n ≤ units x) :
    units (ofUnits n) ≤ units x := by
  unfold units
  rw [msb_ofUnits, code_ofUnits]
  have hn : code x ≤ infinityCode := by simpa [isNan] using hx
  unfold units at h
  split at h
  · rename_i hs
    have hneg : n ≤ 0 := by omega
    have h1 : magnitude 52 (code x) ≤ n.natAbs := by omega
    have h2 : magnitude 52 (code x) ≤ magnitude 52 (min (roundCode 52 n.natAbs) infinityCode) :=
      magnitude_le_iff.mpr (le_min (le_roundCode h1) hn)
    by_cases hn0 : n < 0
    · simp [hn0, hs]; simpa using h2
    · have : n = 0 := by omega
      subst this
      simp only [Int.natAbs_zero] at h1 h2 ⊢
      have h3 : roundCode 52 0 = 0 := by simpa [magnitude_zero] using roundCode_magnitude 52 0
      simp [hs, h3, magnitude_zero]
      omega
  · rename_i hs
    by_cases hn0 : n < 0
    · simp [hn0, hs]
    · have h1 : n.natAbs ≤ magnitude 52 (code x) := by omega
      have h2 : magnitude 52 (min (roundCode 52 n.natAbs) infinityCode) ≤ magnitude 52 (code x) :=
        magnitude_le_iff.mpr ((Nat.min_le_left _ _).trans (roundCode_le h1))
      simp [hn0, hs]; simpa using h2

theorem units_neg_ofUnits (n : Int) : units (ofUnits (-n)) = -units (ofUnits n) := by
  rcases Int.lt_trichotomy n 0 with h | rfl | h
  · unfold units; rw [msb_ofUnits, msb_ofUnits, code_ofUnits, code_ofUnits, Int.natAbs_neg]
    simp [h]; try omega
  · have h3 : roundCode 52 0 = 0 := by simpa [magnitude_zero] using roundCode_magnitude 52 0
    unfold units; rw [msb_ofUnits, msb_ofUnits, code_ofUnits, code_ofUnits]
    simp [h3, magnitude_zero]
  · unfold units; rw [msb_ofUnits, msb_ofUnits, code_ofUnits, code_ofUnits, Int.natAbs_neg]
    have : ¬ n < 0 := by omega
    simp [h, this]

/-- The number of the other sign. -/
theorem exists_neg (x : Number) : ∃ y, units y = -units x ∧ code y = code x := by
  have h : code x < 2 ^ 63 := Nat.mod_lt _ (by norm_num)
  refine ⟨pattern (!x.msb) (code x), ?_, code_pattern h⟩
  unfold units
  rw [msb_pattern h, code_pattern h]
  cases x.msb <;> simp

theorem le_units_ofUnits {n : Int} {x : Number} (hx : isNan x = false) (h : units x ≤ n) :
    units x ≤ units (ofUnits n) := by
  obtain ⟨y, hy, hc⟩ := exists_neg x
  have h1 := units_ofUnits_le (n := -n) (x := y) (by simpa [isNan, hc] using hx) (by omega)
  rw [units_neg_ofUnits, hy] at h1
  omega

/-- What is a number is rounded to itself. -/
theorem units_ofUnits_units {x : Number} (hx : isNan x = false) : units (ofUnits (units x)) = units x :=
  Int.le_antisymm (units_ofUnits_le hx le_rfl) (le_units_ofUnits hx le_rfl)

/-- Integers of up to 53 bits, times a power of two, are rounded to themselves. -/
theorem units_ofUnits_of_representable {n : Int} {m e : Nat} (hm : m ≤ 2 ^ 53) (h : n.natAbs = m * 2 ^ e)
    (hb : n.natAbs < 2 ^ 2098) : units (ofUnits n) = n ∧ isFinite (ofUnits n) = true := by
  have h1 := magnitude_roundCode_of_representable (p := 52) (e := e) hm
  rw [← h] at h1
  have h2 : roundCode 52 n.natAbs < infinityCode := by
    rw [← magnitude_lt_iff (p := 52), h1, magnitude_infinity]; exact hb
  have h3 : min (roundCode 52 n.natAbs) infinityCode = roundCode 52 n.natAbs := Nat.min_eq_left h2.le
  refine ⟨?_, ?_⟩
  · unfold units
    rw [msb_ofUnits, code_ofUnits, h3, h1]
    by_cases hn : n < 0
    · rw [if_pos (by simpa using hn)]; omega
    · rw [if_neg (by simpa using hn)]; omega
  · simp [isFinite, code_ofUnits, h3, h2]

theorem one_mul_bound {m : Nat} (hm : m ≤ 2 ^ 64) : m * one < 2 ^ 2098 := by
  have h1 : m * one ≤ 2 ^ 64 * one := Nat.mul_le_mul_right _ hm
  have h2 : 2 ^ 64 * one < 2 ^ 2098 := by
    unfold one; rw [← pow_add]; exact Nat.pow_lt_pow_right (by norm_num) (by norm_num)
  omega

theorem units_integer {n : Int} (h : n.natAbs ≤ 2 ^ 53) :
    units (ofUnits (n * one)) = n * one ∧ isFinite (ofUnits (n * one)) = true := by
  have h1 : (n * (one : Int)).natAbs = n.natAbs * one := by rw [Int.natAbs_mul]; simp
  exact units_ofUnits_of_representable (m := n.natAbs) (e := 1074) h h1 (by rw [h1]; exact one_mul_bound (by omega))

/-- Addition whose result is a number is exact. -/
theorem units_add {x y : Number} (hx : isFinite x = true) (hy : isFinite y = true)
    (h : units (ofUnits (units x + units y)) = units x + units y ∧
      isFinite (ofUnits (units x + units y)) = true) :
    units (add x y) = units x + units y ∧ isFinite (add x y) = true := by
  unfold add
  rw [not_isNan_of_isFinite hx, not_isNan_of_isFinite hy, hx, hy]
  by_cases h0 : units x + units y = 0
  · simp only [h0, if_true, Bool.not_true, Bool.or_false, if_false, Bool.false_eq_true]
    constructor
    · unfold units; rw [code_pattern (by norm_num), magnitude_zero]; simp
    · simp [isFinite, code_pattern, infinityCode]
  · simpa [h0] using h

/-- Addition of finite numbers in general. -/
theorem units_add_eq {x y : Number} (hx : isFinite x = true) (hy : isFinite y = true) :
    units (add x y) = units (ofUnits (units x + units y)) ∧ isNan (add x y) = false := by
  unfold add
  rw [not_isNan_of_isFinite hx, not_isNan_of_isFinite hy, hx, hy]
  by_cases h0 : units x + units y = 0
  · have h3 : roundCode 52 0 = 0 := by simpa [magnitude_zero] using roundCode_magnitude 52 0
    simp only [h0, if_true, Bool.not_true, Bool.or_false, if_false, Bool.false_eq_true]
    constructor
    · unfold units
      rw [code_pattern (by norm_num), magnitude_zero, code_ofUnits, msb_ofUnits]
      simp [h3, magnitude_zero]
    · simp [isNan, code_pattern, infinityCode]
  · simp [h0, not_isNan_ofUnits]

end Verif.Core.Numbers
