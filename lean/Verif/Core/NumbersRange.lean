import Verif.Core.NumbersProperties
import Mathlib.Algebra.BigOperators.Group.List.Basic
/-
C73: ranges of any numbers end or do not end; sums of sequences.
-/
namespace Verif.Core.Numbers

/-- Below `2 ^ 53` numbers are at most one apart. -/
theorem magnitude_succ_le {c : Nat} (h : magnitude 52 c < 2 ^ 53 * one) :
    magnitude 52 (c + 1) ≤ magnitude 52 c + one := by
  obtain ⟨e, m, rfl, hm, he⟩ := code_cases 52 c
  have h1 := magnitude_code hm.le he
  rw [Nat.add_assoc, magnitude_code (p := 52) (e := e) (m := m + 1) hm (he.imp_right (by omega)), h1, Nat.add_mul,
    Nat.one_mul]
  rw [h1] at h
  have : 2 ^ e ≤ one := by
    unfold one at *
    refine Nat.pow_le_pow_right (by norm_num) ?_
    rcases he with rfl | he
    · omega
    · have h2 : 2 ^ 52 * 2 ^ e < 2 ^ 53 * 2 ^ 1074 := lt_of_le_of_lt (Nat.mul_le_mul_right _ he) h
      rw [← pow_add, ← pow_add] at h2
      have := (Nat.pow_lt_pow_iff_right (by norm_num)).mp h2
      omega
  omega

/-- Where a number is in the order of all numbers. -/
def position (x : Number) : Int := if x.msb then -(code x : Int) else code x

theorem units_lt_iff {x y : Number} : units x < units y ↔ position x < position y := by
  have h1 := magnitude_lt_iff (p := 52) (a := code x) (b := code y)
  have h2 := magnitude_lt_iff (p := 52) (a := code y) (b := code x)
  have hx : magnitude 52 (code x) = 0 ↔ code x = 0 := magnitude_eq_zero
  have hy : magnitude 52 (code y) = 0 ↔ code y = 0 := magnitude_eq_zero
  unfold units position
  cases x.msb <;> cases y.msb <;> simp <;> omega

/-- Some number is greater than `x` and not greater than `x + 1`. -/
theorem exists_between {x : Number} (h1 : -(2 ^ 53 * one : Int) ≤ units x) (h2 : units x < 2 ^ 53 * one) :
    ∃ z, isNan z = false ∧ units x < units z ∧ units z ≤ units x + one := by
  have hone := one_pos'
  have hbig : (2 ^ 53 * one : Nat) < 2 ^ 2098 := one_mul_bound (by norm_num)
  have hnan : ∀ z : Number, magnitude 52 (code z) ≤ 2 ^ 53 * one → isNan z = false := fun z hz => by
    rw [not_isNan_iff, units_natAbs]; exact (hz.trans hbig.le)
  by_cases hneg : units x < 0
  · -- the next code towards zero
    have hs : x.msb = true := by
      by_contra hs; unfold units at hneg; simp [hs] at hneg; omega
    have hu : units x = -(magnitude 52 (code x) : Int) := by simp [units, hs]
    have hpos : 0 < code x := by
      by_contra hc; have : code x = 0 := by omega
      rw [hu, this, magnitude_zero] at hneg; simp at hneg
    have hc : code x - 1 < 2 ^ 63 := by have := Nat.mod_lt x.toNat (show 0 < 2 ^ 63 by norm_num); unfold code; omega
    have hmag : magnitude 52 (code x - 1) < magnitude 52 (code x) := magnitude_lt (by omega)
    have hle : magnitude 52 (code x) ≤ 2 ^ 53 * one := by rw [hu] at h1; push_cast at h1; zify; linarith
    have hsp := magnitude_succ_le (c := code x - 1) (by omega)
    rw [Nat.sub_add_cancel hpos] at hsp
    refine ⟨pattern true (code x - 1), hnan _ (by rw [code_pattern hc]; omega), ?_, ?_⟩
    · rw [hu, units, msb_pattern hc, code_pattern hc]; simp; exact hmag
    · rw [hu, units, msb_pattern hc, code_pattern hc]; simp; omega
  · -- the next code away from zero
    have hu : units x = magnitude 52 (code x) := by
      unfold units at hneg ⊢
      split
      · rename_i hs; simp [hs] at hneg; omega
      · rfl
    have hlt : magnitude 52 (code x) < 2 ^ 53 * one := by rw [hu] at h2; zify; linarith
    have hfin : code x < infinityCode := by
      rw [← magnitude_lt_iff (p := 52), magnitude_infinity]; omega
    have hc : code x + 1 < 2 ^ 63 := by have := infinityCode_lt; omega
    have hsp := magnitude_succ_le hlt
    have hmag : magnitude 52 (code x) < magnitude 52 (code x + 1) := magnitude_lt (by omega)
    refine ⟨pattern false (code x + 1), ?_, ?_, ?_⟩
    · have : code x + 1 ≤ infinityCode := hfin
      simpa [isNan, code_pattern hc] using this
    · rw [hu, units, msb_pattern hc, code_pattern hc]; simpa using hmag
    · rw [hu, units, msb_pattern hc, code_pattern hc]; simp; omega

/-- Adding one to a number from `-2 ^ 53` to `2 ^ 53` makes it greater, also when the result is rounded. -/
theorem lt_add_one {x : Number} (hx : isFinite x = true) (h1 : -(2 ^ 53 * one : Int) ≤ units x)
    (h2 : units x < 2 ^ 53 * one) :
    units x < units (add x (literal 1)) ∧ isFinite (add x (literal 1)) = true := by
  obtain ⟨z, hz, hlt, hle⟩ := exists_between h1 h2
  have hlit : IsInteger (literal 1) 1 := isInteger_literal (by norm_num)
  have hadd := units_add_eq hx hlit.1
  have hu : units (literal 1) = one := by rw [hlit.2]; simp
  rw [hu] at hadd
  refine ⟨?_, ?_⟩
  · rw [hadd.1]; exact hlt.trans_le (le_units_ofUnits hz hle)
  · -- the result is at most `2 ^ 53`
    have hb : IsInteger (literal (2 ^ 53)) (2 ^ 53) := isInteger_literal (by norm_num)
    have hb1 : IsInteger (literal (-2 ^ 53)) (-2 ^ 53) := isInteger_literal (by norm_num)
    have hone := one_pos'
    have hbig : (2 ^ 54 * one : Nat) < 2 ^ 2098 := one_mul_bound (by norm_num)
    have hmax : IsInteger (literal 1) 1 := hlit
    have hle' : units (ofUnits (units x + one)) ≤ 2 ^ 54 * one := by
      have h54 : IsInteger (ofUnits ((2 ^ 54 : Int) * one)) (2 ^ 54) :=
        isInteger_ofUnits (m := 1) (e := 54) (by norm_num) (by norm_num) (by norm_num)
      have := units_ofUnits_le (n := units x + one) h54.notNan (by rw [h54.2]; linarith)
      rwa [h54.2] at this
    have hge : -(2 ^ 53 * one : Int) ≤ units (ofUnits (units x + one)) := by
      have := le_units_ofUnits (n := units x + one) hb1.notNan (by rw [hb1.2]; linarith)
      rw [hb1.2] at this
      linarith
    rw [isFinite_iff, hadd.1]
    have hbig' : (2 ^ 54 * one : Int) < 2 ^ 2098 := by exact_mod_cast hbig
    rw [← Int.ofNat_lt, Int.natCast_natAbs, abs_lt]
    push_cast
    generalize (2 : Int) ^ 2098 = B at *
    constructor <;> linarith

/-- A range of any numbers, integers or not, from `-2 ^ 53` up ends if its maximum is less than `2 ^ 53`; its
elements are between the minimum and the maximum and strictly increase, and the first is the minimum. -/
theorem c73_range_ends {x y : Number} (hx : isFinite x = true) (h1 : -(2 ^ 53 * one : Int) ≤ units x)
    (hy : isNan y = false) (h2 : units y < 2 ^ 53 * one) :
    ∃ xs, Elements rangeNode (x, y) xs ∧ (∀ z ∈ xs, units x ≤ units z ∧ units z ≤ units y) ∧
      xs.Pairwise (fun z w => units z < units w) ∧ (units x ≤ units y → xs.head? = some x) := by
  generalize hk : (position y - position x + 1).toNat = k
  induction k using Nat.strong_induction_on generalizing x with
  | _ k ih =>
    have hxn := not_isNan_of_isFinite hx
    by_cases hlt : units y < units x
    · exact ⟨[], .nil (by simp [rangeNode, greater, less, hy, hxn, hlt]), by simp, by simp, fun h => by omega⟩
    · have hle : units x ≤ units y := by omega
      obtain ⟨hs, hf⟩ := lt_add_one hx h1 (by omega)
      have hpos := units_lt_iff.mp hs
      have hpy : ¬ position y < position x := fun h => hlt (units_lt_iff.mpr h)
      obtain ⟨xs, he, hb, hp, _⟩ := ih _ (by omega) hf (by omega) rfl
      refine ⟨x :: xs, .cons (t := (add x (literal 1), y)) (by simp [rangeNode, greater, less, hlt]) he, ?_, ?_,
        fun _ => rfl⟩
      · intro z hz
        rcases List.mem_cons.mp hz with rfl | hz
        · exact ⟨le_rfl, hle⟩
        · have := hb z hz; omega
      · exact List.pairwise_cons.mpr ⟨fun z hz => by have := hb z hz; omega, hp⟩

/-- A range whose maximum is not a number never ends. -/
theorem c73_range_to_nan_is_endless (x y : Number) (hy : isNan y = true) : Endless rangeNode (x, y) := by
  intro xs hxs
  have key : ∀ s ys, Elements rangeNode s ys → s.2 = y → False := by
    intro s ys h
    induction h with
    | nil h =>
      rename_i s
      obtain ⟨a, b⟩ := s
      rintro rfl
      simp [rangeNode, greater, less, hy] at h
    | cons h _ ih =>
      rename_i s t _ _
      obtain ⟨a, b⟩ := s
      rintro rfl
      simp [rangeNode, greater, less, hy] at h
      exact ih h.2.2.symm
  exact key _ _ hxs rfl

/-- A range never ends if `2 ^ 53` is in it: one more is rounded down to `2 ^ 53` again. -/
theorem c73_large_range_is_endless {x y : Number} {a : Int} (hx : IsInteger x a) (h1 : -2 ^ 53 ≤ a)
    (h2 : a ≤ 2 ^ 53) (hy : isNan y = false) (h3 : 2 ^ 53 * one ≤ units y) : Endless rangeNode (x, y) := by
  generalize hk : (2 ^ 53 - a).toNat = k
  induction k generalizing x a with
  | zero =>
    have ha : a = 2 ^ 53 := by omega
    subst ha
    have hlit : IsInteger (literal (2 ^ 53)) (2 ^ 53) := isInteger_literal (by norm_num)
    have hxe : x = literal (2 ^ 53) := by
      refine eq_of_units (hx.2.trans hlit.2.symm) ?_
      rw [hx.2]
      exact (mul_pos (by norm_num) one_pos').ne'
    subst hxe
    have hfix : add (literal (2 ^ 53)) (literal 1) = literal (2 ^ 53) := by decide +kernel
    refine endless_of_fixpoint (x := literal (2 ^ 53)) ?_
    have : ¬ units y < units (literal (2 ^ 53)) := by rw [hlit.2]; omega
    generalize literal (2 ^ 53) = c at *
    simp [rangeNode, greater, less, this, hfix]
  | succ k ih =>
    have hlt : ¬ units y < units x := by
      rw [hx.2]
      have := mul_le_mul_of_nonneg_right h2 one_pos'.le
      omega
    exact endless_of_step (x := x) (t := (add x (literal 1), y)) (by simp [rangeNode, greater, less, hlt])
      (ih (add_one hx h1 (by omega)) (by omega) (by omega) (by omega))

/-! ### Sums of sequences -/

theorem integers_one (n : Nat) : integers 1 n = (List.range n).map fun i : Nat => (1 + i : Int) := by
  simp [integers]

theorem sum_integers_one (n : Nat) : 2 * (integers 1 n).sum = (n : Int) * (n + 1) := by
  rw [integers_one]
  induction n with
  | zero => simp
  | succ n ih =>
    rw [List.range_succ, List.map_append, List.sum_append]
    simp only [List.map_cons, List.map_nil, List.sum_cons, List.sum_nil]
    push_cast
    linarith

theorem take_integers_one (n k : Nat) : (integers 1 n).take k = integers 1 (min k n : Nat) := by
  rw [integers_one, integers_one, ← List.map_take, List.take_range]

/-- The sum of the sequence up to `n` is `n * (n + 1) / 2`, if that is at most `2 ^ 53`. -/
theorem c73_sum_of_sequence {y : Number} {n : Nat} (hy : IsInteger y n) (hn : n * (n + 1) / 2 ≤ 2 ^ 53) :
    ∃ xs, Elements rangeNode (literal 1, y) xs ∧ IsInteger (sum xs) ((n * (n + 1) / 2 : Nat) : Int) := by
  have hlt : n < 2 ^ 53 := by
    by_contra h
    have : 2 ^ 53 * (2 ^ 53 + 1) ≤ n * (n + 1) := Nat.mul_le_mul (by omega) (by omega)
    omega
  obtain ⟨xs, h1, h2⟩ := c73_sequence hy (by exact_mod_cast hlt)
  have hsum : ∀ m : Nat, (integers 1 m).sum = ((m * (m + 1) / 2 : Nat) : Int) := fun m => by
    have := sum_integers_one m
    push_cast
    omega
  refine ⟨xs, h1, ?_⟩
  rw [← hsum n]
  refine c73_sum h2 fun k => ?_
  rw [take_integers_one, hsum]
  have h3 : min k n * (min k n + 1) ≤ n * (n + 1) := Nat.mul_le_mul (Nat.min_le_right _ _) (by omega)
  have h4 := Nat.div_le_div_right (c := 2) h3
  simp only [Int.natAbs_natCast]
  omega

end Verif.Core.Numbers
