import Verif.Core.NumbersLemmas
import Verif.Core.NumbersSpecification
/-
C73: numbers, 64-bit integers and lists of numbers of the core package.
-/
namespace Verif.Core.Numbers

theorem one_pos' : (0 : Int) < one := by exact_mod_cast one_pos

theorem IsInteger.notNan {x : Number} {n : Int} (h : IsInteger x n) : isNan x = false := not_isNan_of_isFinite h.1

/-- A number is at most one integer. -/
theorem IsInteger.unique {x : Number} {m n : Int} (hm : IsInteger x m) (hn : IsInteger x n) : m = n :=
  mul_right_cancel₀ one_pos'.ne' (hm.2.symm.trans hn.2)

/-- The integers that are numbers: all with up to 53 bits, and those times powers of two. -/
theorem isInteger_ofUnits {n : Int} {m e : Nat} (hm : m ≤ 2 ^ 53) (h : n.natAbs = m * 2 ^ e)
    (hb : n.natAbs ≤ 2 ^ 64) : IsInteger (ofUnits (n * one)) n := by
  have h1 : (n * (one : Int)).natAbs = n.natAbs * one := by rw [Int.natAbs_mul]; simp
  have h2 := units_ofUnits_of_representable (n := n * one) (m := m) (e := e + 1074) hm
    (by rw [h1, h, pow_add, one]; ring) (by rw [h1]; exact one_mul_bound hb)
  exact ⟨h2.2, h2.1⟩

theorem isInteger_literal {n : Int} (h : n.natAbs ≤ 2 ^ 53) : IsInteger (literal n) n :=
  ⟨(units_integer h).2, (units_integer h).1⟩

theorem toU64_integer {x : Number} {n : Nat} (h : IsInteger x n) (hn : n < 2 ^ 64) : toU64 x = BitVec.ofNat 64 n := by
  unfold toU64
  rw [h.notNan, h.2, Int.mul_ediv_cancel _ one_pos'.ne']
  simp only [Bool.false_eq_true, if_false]
  congr 1
  omega

theorem toU64_integer_toNat {x : Number} {n : Nat} (h : IsInteger x n) (hn : n < 2 ^ 64) : (toU64 x).toNat = n := by
  rw [toU64_integer h hn, BitVec.toNat_ofNat, Nat.mod_eq_of_lt hn]

/-- `ToInteger64` results in the greatest 64-bit integer that is not greater than the number, and in zero if
there is none. -/
theorem c73_to_integer (x : Number) (hx : isNan x = false) (k : Nat) (hk : k < 2 ^ 64) :
    k ≤ (toInteger64 x).toNat ↔ k = 0 ∨ (k : Int) * one ≤ units x := by
  unfold toInteger64 toU64
  rw [hx]
  simp only [Bool.false_eq_true, if_false, BitVec.toNat_ofNat]
  rw [Nat.mod_eq_of_lt (by omega), ← Int.le_ediv_iff_mul_le one_pos']
  omega

/-- What is not a number is converted into zero. -/
theorem c73_to_integer_nan (x : Number) (hx : isNan x = true) : toInteger64 x = 0 := by
  simp [toInteger64, toU64, hx]

/-- `FromInteger64` results in a number nearest to the integer. -/
theorem c73_from_integer (b : Number) (y : Number) (hy : isNan y = false) :
    isFinite (fromInteger64 b) = true ∧
      |units (fromInteger64 b) - b.toNat * one| ≤ |units y - b.toNat * one| := by
  have hb : b.toNat * one < 2 ^ 2098 := one_mul_bound (by have := b.isLt; omega)
  have hpow : (2 : Nat) ^ 64 * one < 2 ^ 2098 := one_mul_bound le_rfl
  have hcode : roundCode 52 (b.toNat * one) < infinityCode := by
    -- `2 ^ 64` is a number, so rounding does not go beyond it
    have h1 := magnitude_roundCode_of_representable (p := 52) (m := 1) (e := 64 + 1074) (by norm_num)
    have h2 : 1 * 2 ^ (64 + 1074) = 2 ^ 64 * one := by rw [one, ← pow_add, Nat.one_mul]
    rw [h2] at h1
    have h3 : b.toNat * one ≤ magnitude 52 (roundCode 52 (2 ^ 64 * one)) := by
      rw [h1]; exact Nat.mul_le_mul_right _ b.isLt.le
    have h4 := roundCode_le h3
    have h5 : roundCode 52 (2 ^ 64 * one) < infinityCode := by
      rw [← magnitude_lt_iff (p := 52), h1, magnitude_infinity]; exact hpow
    omega
  have habs : ((b.toNat : Int) * one).natAbs = b.toNat * one := by rw [Int.natAbs_mul]; simp
  have hneg : ¬ ((b.toNat : Int) * one < 0) := by
    have : (0 : Int) ≤ (b.toNat : Int) * one := mul_nonneg (Int.natCast_nonneg _) one_pos'.le
    omega
  have hc : code (fromInteger64 b) = roundCode 52 (b.toNat * one) := by
    unfold fromInteger64 fromU64
    rw [code_ofUnits, habs, Nat.min_eq_left hcode.le]
  have hm : (fromInteger64 b).msb = false := by
    unfold fromInteger64 fromU64
    rw [msb_ofUnits]; simpa using hneg
  refine ⟨by simpa [isFinite, hc] using hcode, ?_⟩
  have h1 : units (fromInteger64 b) = magnitude 52 (roundCode 52 (b.toNat * one)) := by
    unfold units; rw [hm, hc]; simp
  have h2 := roundCode_nearest 52 (b.toNat * one) (code y)
  have h3 := roundCode_nearest 52 (b.toNat * one) 0
  rw [magnitude_zero] at h3
  rw [h1]
  push_cast at h2 h3
  unfold units
  split
  · have h0 : (0 : Int) ≤ (b.toNat : Int) * one := mul_nonneg (Int.natCast_nonneg _) one_pos'.le
    refine h3.trans ?_
    rw [abs_of_nonpos (by omega), abs_of_nonpos (by omega)]
    omega
  · exact h2

/-- Integers that are numbers are converted into 64-bit integers and back without loss. -/
theorem c73_integers_round_trip {x : Number} {n : Nat} (h : IsInteger x n) (hn : n < 2 ^ 64)
    (h0 : ¬ IsNegativeZero x) : fromInteger64 (toInteger64 x) = x := by
  unfold fromInteger64 toInteger64 fromU64
  rw [toU64_integer_toNat h hn]
  have h1 : ((n : Int) * one) = units x := h.2.symm
  rw [h1]
  by_cases hu : units x = 0
  · have hc : code x = 0 := by
      have := units_natAbs x
      rw [hu] at this
      exact magnitude_eq_zero.mp this.symm
    have hs : x.msb = false := by
      by_contra hs
      have hs : x.msb = true := by simpa using hs
      apply h0
      unfold IsNegativeZero
      rw [← pattern_self x, hc, hs]
    have h3 : roundCode 52 0 = 0 := by simpa [magnitude_zero] using roundCode_magnitude 52 0
    rw [hu, ← pattern_self x, hc, hs]
    simp [ofUnits, h3]
  · have h2 := units_ofUnits_units h.notNan
    exact eq_of_units h2 (by rw [h2]; exact hu)

theorem fromU64_isInteger {b : BitVec 64} {m e : Nat} (hm : m ≤ 2 ^ 53) (h : b.toNat = m * 2 ^ e) :
    IsInteger (fromU64 b) b.toNat := by
  have := b.isLt
  exact isInteger_ofUnits (m := m) (e := e) hm (by simpa using h) (by simp; omega)

/-- 64-bit integers below `2 ^ 53` are converted into numbers and back without loss. -/
theorem c73_small_round_trip (b : Number) (h : b.toNat ≤ 2 ^ 53) : toInteger64 (fromInteger64 b) = b := by
  have h1 := fromU64_isInteger (b := b) (e := 0) h (by simp)
  unfold toInteger64 fromInteger64
  rw [toU64_integer h1 b.isLt]
  simp

/-- Bitwise operations on integers below `2 ^ 53`. -/
theorem c73_bitwise {x y : Number} {m n : Nat} (hx : IsInteger x m) (hy : IsInteger y n) (hm : m < 2 ^ 53)
    (hn : n < 2 ^ 53) :
    IsInteger (fromInteger64 (bitAnd (toInteger64 x) (toInteger64 y))) ((m &&& n : Nat) : Int) ∧
    IsInteger (fromInteger64 (bitOr (toInteger64 x) (toInteger64 y))) ((m ||| n : Nat) : Int) ∧
    IsInteger (fromInteger64 (bitXor (toInteger64 x) (toInteger64 y))) ((m ^^^ n : Nat) : Int) := by
  have h1 := toU64_integer_toNat hx (by omega)
  have h2 := toU64_integer_toNat hy (by omega)
  have ha := Nat.and_lt_two_pow m hn
  have ho := Nat.or_lt_two_pow hm hn
  have hxor := Nat.xor_lt_two_pow hm hn
  refine ⟨?_, ?_, ?_⟩
  · have h3 : (bitAnd (toInteger64 x) (toInteger64 y)).toNat = m &&& n := by
      simp [bitAnd, toInteger64, h1, h2]
    rw [← h3] at ha ⊢
    exact fromU64_isInteger (e := 0) ha.le (by simp)
  · have h3 : (bitOr (toInteger64 x) (toInteger64 y)).toNat = m ||| n := by
      simp [bitOr, toInteger64, h1, h2]
    rw [← h3] at ho ⊢
    exact fromU64_isInteger (e := 0) ho.le (by simp)
  · have h3 : (bitXor (toInteger64 x) (toInteger64 y)).toNat = m ^^^ n := by
      simp [bitXor, toInteger64, h1, h2]
    rw [← h3] at hxor ⊢
    exact fromU64_isInteger (e := 0) hxor.le (by simp)

/-- Bitwise operations on any 64-bit integers, bit by bit. -/
theorem c73_bits (x y : Number) (i : Nat) (hi : i < 64) :
    (bitAnd x y).getLsbD i = (x.getLsbD i && y.getLsbD i) ∧
    (bitOr x y).getLsbD i = (x.getLsbD i || y.getLsbD i) ∧
    (bitXor x y).getLsbD i = (x.getLsbD i ^^ y.getLsbD i) ∧
    (bitNot x).getLsbD i = !x.getLsbD i := by
  simp [bitAnd, bitOr, bitXor, bitNot, hi]

/-- Shifts to the left by less than 64 bits multiply by a power of two, modulo `2 ^ 64`. -/
theorem c73_left_shift_64 (b : Number) {y : Number} {n : Nat} (hy : IsInteger y n) (hn : n < 64) :
    (leftShift b y).toNat = b.toNat * 2 ^ n % 2 ^ 64 := by
  unfold leftShift
  rw [toU64_integer_toNat hy (by omega), Nat.mod_eq_of_lt hn]
  simp [Nat.shiftLeft_eq]

/-- Shifts to the right by less than 64 bits divide by a power of two. -/
theorem c73_right_shift_64 (b : Number) {y : Number} {n : Nat} (hy : IsInteger y n) (hn : n < 64) :
    (rightShift b y).toNat = b.toNat / 2 ^ n := by
  unfold rightShift
  rw [toU64_integer_toNat hy (by omega), Nat.mod_eq_of_lt hn]
  simp [Nat.shiftRight_eq_div_pow]

/-- Shifts of integers below `2 ^ 53`, if no bit is lost to the left. -/
theorem c73_shifts {x y : Number} {m n : Nat} (hx : IsInteger x m) (hy : IsInteger y n) (hm : m < 2 ^ 53)
    (hn : n < 64) :
    (m * 2 ^ n < 2 ^ 64 →
      IsInteger (fromInteger64 (leftShift (toInteger64 x) y)) ((m * 2 ^ n : Nat) : Int)) ∧
    IsInteger (fromInteger64 (rightShift (toInteger64 x) y)) ((m / 2 ^ n : Nat) : Int) := by
  have h1 := toU64_integer_toNat hx (by omega)
  refine ⟨fun h => ?_, ?_⟩
  · have h3 := c73_left_shift_64 (toInteger64 x) hy hn
    rw [show (toInteger64 x).toNat = m from h1, Nat.mod_eq_of_lt h] at h3
    have h4 := fromU64_isInteger hm.le h3
    rwa [h3] at h4
  · have h3 := c73_right_shift_64 (toInteger64 x) hy hn
    rw [show (toInteger64 x).toNat = m from h1] at h3
    have h4 : m / 2 ^ n ≤ 2 ^ 53 := (Nat.div_le_self _ _).trans hm.le
    have h5 := fromU64_isInteger (m := m / 2 ^ n) (e := 0) h4 (by rw [h3]; simp)
    rwa [h3] at h5

/-! ### Maximum and minimum -/

/-- Maximums and minimums are one of the arguments and not less, or not greater, than both; if one of the
arguments is not a number, neither is the result. -/
theorem c73_maximum_minimum (x y : Number) :
    (isNan (maximum x y) = (isNan x || isNan y)) ∧ (isNan (minimum x y) = (isNan x || isNan y)) ∧
    (isNan x = false → isNan y = false →
      ((maximum x y = x ∨ maximum x y = y) ∧ units x ≤ units (maximum x y) ∧ units y ≤ units (maximum x y)) ∧
      ((minimum x y = x ∨ minimum x y = y) ∧ units (minimum x y) ≤ units x ∧ units (minimum x y) ≤ units y)) := by
  have hnan : isNan nan = true := by decide +kernel
  unfold maximum minimum greater less
  refine ⟨?_, ?_, ?_⟩
  · split
    · simp_all
    · split <;> simp_all
  · split
    · simp_all
    · split <;> simp_all
  · intro hx hy
    simp only [hx, hy, Bool.or_false, Bool.false_eq_true, if_false, Bool.not_false, Bool.true_and,
      decide_eq_true_eq]
    refine ⟨?_, ?_⟩
    · split
      · exact ⟨.inl rfl, by omega, by omega⟩
      · exact ⟨.inr rfl, by omega, by omega⟩
    · split
      · exact ⟨.inl rfl, by omega, by omega⟩
      · exact ⟨.inr rfl, by omega, by omega⟩

/-! ### Ranges -/

theorem Elements.unique {σ α : Type} {node : σ → Option (α × σ)} {s : σ} {xs ys : List α}
    (hx : Elements node s xs) (hy : Elements node s ys) : xs = ys := by
  induction hx generalizing ys with
  | nil h => cases hy with
    | nil => rfl
    | cons h' _ => rw [h] at h'; simp at h'
  | cons h _ ih => cases hy with
    | nil h' => rw [h] at h'; simp at h'
    | cons h' t => rw [h] at h'; simp at h'; obtain ⟨rfl, rfl⟩ := h'; rw [ih t]

/-- A state that is its own rest makes an endless list. -/
theorem endless_of_fixpoint {σ α : Type} {node : σ → Option (α × σ)} {s : σ} {x : α} (h : node s = some (x, s)) :
    Endless node s := by
  intro xs hx
  have key : ∀ t ys, Elements node t ys → t = s → False := by
    intro t ys hy
    induction hy with
    | nil h' => rintro rfl; rw [h] at h'; simp at h'
    | cons h' _ ih => rintro rfl; rw [h] at h'; simp at h'; exact ih h'.2.symm
  exact key s xs hx rfl

theorem endless_of_step {σ α : Type} {node : σ → Option (α × σ)} {s t : σ} {x : α} (h : node s = some (x, t))
    (ht : Endless node t) : Endless node s := by
  intro xs hx
  cases hx with
  | nil h' => rw [h] at h'; simp at h'
  | cons h' hy => rw [h] at h'; simp at h'; obtain ⟨-, rfl⟩ := h'; exact ht _ hy

theorem add_one {x : Number} {a : Int} (h : IsInteger x a) (ha : -2 ^ 53 ≤ a) (hb : a < 2 ^ 53) :
    IsInteger (add x (literal 1)) (a + 1) := by
  have h1 : IsInteger (literal 1) 1 := isInteger_literal (by norm_num)
  have h2 : units x + units (literal 1) = (a + 1) * one := by rw [h.2, h1.2]; ring
  have h3 := units_integer (n := a + 1) (by omega)
  have h4 := units_add h.1 h1.1 (by rw [h2]; exact h3)
  exact ⟨h4.2, by rw [h4.1, h2]⟩

/-- A range of integers from `-2 ^ 53` up has the integers as its elements, if the maximum is less than `2 ^ 53`. -/
theorem c73_integer_range {x y : Number} {a : Int} (hx : IsInteger x a) (ha : -2 ^ 53 ≤ a) (hy : isNan y = false)
    (hb : units y < 2 ^ 53 * one) :
    ∃ xs, Elements rangeNode (x, y) xs ∧ List.Forall₂ IsInteger xs (integers a (units y / one)) := by
  have hbound : units y / one < 2 ^ 53 := by rw [Int.ediv_lt_iff_lt_mul one_pos']; exact hb
  generalize hk : (units y / one - a + 1).toNat = k
  induction k generalizing x a with
  | zero =>
    refine ⟨[], .nil ?_, by simp [integers, hk]⟩
    have h1 : units y / one < a := by omega
    rw [Int.ediv_lt_iff_lt_mul one_pos', ← hx.2] at h1
    simp [rangeNode, greater, less, hy, hx.notNan, h1]
  | succ k ih =>
    have h1 : a ≤ units y / one := by omega
    obtain ⟨xs, he, hf⟩ := ih (add_one hx ha (by omega)) (by omega) (by omega)
    refine ⟨x :: xs, .cons (t := (add x (literal 1), y)) ?_ he, ?_⟩
    · have h2 : ¬ units y < units x := by
        rw [Int.le_ediv_iff_mul_le one_pos', ← hx.2] at h1
        omega
      simp [rangeNode, greater, less, h2]
    · have h3 : integers a (units y / one) = a :: integers (a + 1) (units y / one) := by
        unfold integers
        rw [hk, show (units y / one - (a + 1) + 1).toNat = k by omega, List.range_succ_eq_map]
        simp only [List.map_cons, List.map_map]
        refine congrArg₂ _ (by simp) (List.map_congr_left fun i _ => ?_)
        simp only [Function.comp]
        push_cast
        ring
      rw [h3]
      exact .cons hx hf

/-- `Sequence` has the integers from one to the maximum. -/
theorem c73_sequence {y : Number} {n : Int} (hy : IsInteger y n) (hn : n < 2 ^ 53) :
    ∃ xs, Elements rangeNode (literal 1, y) xs ∧ List.Forall₂ IsInteger xs (integers 1 n) := by
  have h := c73_integer_range (x := literal 1) (a := 1) (isInteger_literal (by norm_num)) (by norm_num) hy.notNan
    (by rw [hy.2]; exact mul_lt_mul_of_pos_right hn one_pos')
  rwa [hy.2, Int.mul_ediv_cancel _ one_pos'.ne'] at h

/-! ### Sums -/

theorem add_integers {x y : Number} {a b : Int} (hx : IsInteger x a) (hy : IsInteger y b)
    (h : (a + b).natAbs ≤ 2 ^ 53) : IsInteger (add x y) (a + b) := by
  have h2 : units x + units y = (a + b) * one := by rw [hx.2, hy.2]; ring
  have h4 := units_add hx.1 hy.1 (by rw [h2]; exact units_integer h)
  exact ⟨h4.2, by rw [h4.1, h2]⟩

theorem sumRecursive_integers {xs : List Number} {ns : List Int} (h : List.Forall₂ IsInteger xs ns) {s : Number}
    {a : Int} (hs : IsInteger s a) (hb : ∀ k, (a + (ns.take k).sum).natAbs ≤ 2 ^ 53) :
    IsInteger (sumRecursive xs s) (a + ns.sum) := by
  induction h generalizing s a with
  | nil => simpa [sumRecursive] using hs
  | @cons x n xs ns hx _ ih =>
    have h1 := hb 1
    simp at h1
    have h2 := ih (add_integers hs hx h1) fun k => by
      have := hb (k + 1)
      simpa [Int.add_assoc] using this
    simpa [sumRecursive, Int.add_assoc] using h2

/-- Sums of integers are exact, if all partial sums are at most `2 ^ 53`. -/
theorem c73_sum {xs : List Number} {ns : List Int} (h : List.Forall₂ IsInteger xs ns)
    (hb : ∀ k, ((ns.take k).sum).natAbs ≤ 2 ^ 53) : IsInteger (sum xs) ns.sum := by
  have := sumRecursive_integers h (s := literal 0) (a := 0) (isInteger_literal (by norm_num)) (by simpa using hb)
  simpa [sum] using this

end Verif.Core.Numbers
