import Mathlib.Tactic.Ring
import Mathlib.Tactic.Linarith
import Mathlib.Data.Nat.Log
import Mathlib.Algebra.Order.Ring.Abs
import Mathlib.Data.Int.Order.Basic
/-
Magnitudes of binary floating point numbers and rounding to the nearest one, ties to even, for any precision.

A magnitude is coded, as in IEEE 754, by a number `b`: its exponent field `b / 2 ^ p` and fraction field
`b % 2 ^ p`. The unit in which magnitudes are measured is the smallest positive one, so all are natural numbers.
-/
namespace Verif.Core.Numbers

/-- The magnitude with code `b`: subnormal ones have the exponent field zero and no hidden bit. -/
def magnitude (p b : Nat) : Nat :=
  if b / 2 ^ p = 0 then b else (2 ^ p + b % 2 ^ p) * 2 ^ (b / 2 ^ p - 1)

/-- `n / d` rounded to the nearest natural number, ties to the even one. -/
def roundHalfEven (n d : Nat) : Nat :=
  if 2 * (n % d) < d then n / d
  else if d < 2 * (n % d) then n / d + 1
  else if n / d % 2 = 0 then n / d else n / d + 1

/-- The code of the magnitude that `n` is rounded to. -/
def roundCode (p n : Nat) : Nat :=
  (Nat.log 2 n - p) * 2 ^ p + roundHalfEven n (2 ^ (Nat.log 2 n - p))

variable {p : Nat}

theorem magnitude_code {e m : Nat} (hm : m ≤ 2 ^ (p + 1)) (h : e = 0 ∨ 2 ^ p ≤ m) :
    magnitude p (e * 2 ^ p + m) = m * 2 ^ e := by
  have hp : 0 < 2 ^ p := Nat.pos_of_ne_zero (by simp)
  have h2 : 2 ^ (p + 1) = 2 * 2 ^ p := by ring
  unfold magnitude
  by_cases hlt : m < 2 ^ p
  · obtain rfl | h := h
    · simp [Nat.div_eq_of_lt hlt]
    · omega
  · by_cases heq : m = 2 ^ (p + 1)
    · have : e * 2 ^ p + m = (e + 2) * 2 ^ p := by rw [heq]; ring
      rw [this, Nat.mul_div_cancel _ hp, Nat.mul_mod_left, heq]
      simp
      ring
    · obtain ⟨f, rfl⟩ : ∃ f, m = 2 ^ p + f := ⟨m - 2 ^ p, by omega⟩
      have hf : f < 2 ^ p := by omega
      have : e * 2 ^ p + (2 ^ p + f) = f + (e + 1) * 2 ^ p := by ring
      rw [this, Nat.add_mul_div_right _ _ hp, Nat.div_eq_of_lt hf, Nat.add_mul_mod_self_right,
        Nat.mod_eq_of_lt hf]
      simp

/-- Every code has an exponent and a significand. -/
theorem code_cases (p b : Nat) : ∃ e m, b = e * 2 ^ p + m ∧ m < 2 ^ (p + 1) ∧ (e = 0 ∨ 2 ^ p ≤ m) := by
  have hp : 0 < 2 ^ p := Nat.pos_of_ne_zero (by simp)
  have h2 : 2 ^ (p + 1) = 2 * 2 ^ p := by ring
  by_cases h : b < 2 ^ p
  · exact ⟨0, b, by simp, by omega, .inl rfl⟩
  · refine ⟨b / 2 ^ p - 1, 2 ^ p + b % 2 ^ p, ?_, ?_, .inr (by omega)⟩
    · have h1 : 1 ≤ b / 2 ^ p := (Nat.le_div_iff_mul_le hp).mpr (by omega)
      have := Nat.div_add_mod b (2 ^ p)
      obtain ⟨q, hq⟩ : ∃ q, b / 2 ^ p = q + 1 := ⟨b / 2 ^ p - 1, by omega⟩
      rw [hq] at this ⊢
      simp
      nlinarith
    · have := Nat.mod_lt b hp
      omega

theorem roundHalfEven_one (n : Nat) : roundHalfEven n 1 = n := by
  simp [roundHalfEven, Nat.mod_one]

theorem le_roundHalfEven (n d : Nat) : n / d ≤ roundHalfEven n d := by
  unfold roundHalfEven; split <;> (try split) <;> (try split) <;> omega

theorem roundHalfEven_le (n d : Nat) : roundHalfEven n d ≤ n / d + 1 := by
  unfold roundHalfEven; split <;> (try split) <;> (try split) <;> omega

theorem roundHalfEven_le_of_le {n d m : Nat} (hd : 0 < d) (h : n ≤ m * d) : roundHalfEven n d ≤ m := by
  by_cases hlt : n / d < m
  · exact (roundHalfEven_le n d).trans hlt
  · have h1 : n / d ≤ m := Nat.div_le_of_le_mul (by rwa [Nat.mul_comm] at h)
    have h2 : n / d = m := by omega
    have h3 := Nat.div_add_mod n d
    rw [h2] at h3
    have h4 : n % d = 0 := by rw [Nat.mul_comm] at h3; omega
    simp [roundHalfEven, h4, hd, h2]

/-- The exponent of a magnitude and its bounds. -/
theorem exponent_cases (p n : Nat) :
    (Nat.log 2 n - p = 0 ∧ n < 2 ^ (p + 1)) ∨
      (0 < Nat.log 2 n - p ∧ 2 ^ p * 2 ^ (Nat.log 2 n - p) ≤ n ∧ n < 2 ^ (p + 1) * 2 ^ (Nat.log 2 n - p)) := by
  by_cases h : Nat.log 2 n ≤ p
  · exact .inl ⟨by omega, (Nat.lt_pow_succ_log_self (by norm_num) n).trans_le
      (Nat.pow_le_pow_right (by norm_num) (by omega))⟩
  · refine .inr ⟨by omega, ?_, ?_⟩
    · rw [← pow_add, show p + (Nat.log 2 n - p) = Nat.log 2 n by omega]
      exact Nat.pow_log_le_self 2 (by rintro rfl; simp at h)
    · rw [← pow_add, show p + 1 + (Nat.log 2 n - p) = Nat.log 2 n + 1 by omega]
      exact Nat.lt_pow_succ_log_self (by norm_num) n

/-- The significand that `n` is rounded to. -/
theorem significand_bounds (p n : Nat) :
    roundHalfEven n (2 ^ (Nat.log 2 n - p)) ≤ 2 ^ (p + 1) ∧
      (Nat.log 2 n - p = 0 ∨ 2 ^ p ≤ roundHalfEven n (2 ^ (Nat.log 2 n - p))) := by
  have hd : 0 < 2 ^ (Nat.log 2 n - p) := Nat.pos_of_ne_zero (by simp)
  rcases exponent_cases p n with ⟨h1, h2⟩ | ⟨h1, h2, h3⟩
  · rw [h1]; simp only [pow_zero, roundHalfEven_one]; exact ⟨h2.le, .inl trivial⟩
  · exact ⟨roundHalfEven_le_of_le hd h3.le,
      .inr (((Nat.le_div_iff_mul_le hd).mpr h2).trans (le_roundHalfEven _ _))⟩

theorem magnitude_roundCode (p n : Nat) : magnitude p (roundCode p n) =
    roundHalfEven n (2 ^ (Nat.log 2 n - p)) * 2 ^ (Nat.log 2 n - p) :=
  magnitude_code (significand_bounds p n).1 (significand_bounds p n).2

theorem roundCode_le {n b : Nat} (h : n ≤ magnitude p b) : roundCode p n ≤ b := by
  obtain ⟨e', m', rfl, hm', he'⟩ := code_cases p b
  rw [magnitude_code hm'.le he'] at h
  have hs := significand_bounds p n
  have h2 : 2 ^ (p + 1) = 2 * 2 ^ p := by ring
  have hp : 0 < 2 ^ p := Nat.pos_of_ne_zero (by simp)
  unfold roundCode
  have hc := exponent_cases p n
  generalize Nat.log 2 n - p = e at *
  have hd : 0 < 2 ^ e := Nat.pos_of_ne_zero (by simp)
  rcases Nat.lt_trichotomy e e' with hlt | rfl | hlt
  · have : (e + 1) * 2 ^ p ≤ e' * 2 ^ p := Nat.mul_le_mul_right _ hlt
    rcases he' with rfl | he'
    · omega
    · nlinarith
  · have := roundHalfEven_le_of_le hd h
    omega
  · rcases hc with ⟨h1, _⟩ | ⟨_, h1, _⟩
    · omega
    · exfalso
      have h3 : 2 ^ (e' + 1) ≤ 2 ^ e := Nat.pow_le_pow_right (by norm_num) hlt
      have h4 : m' * 2 ^ e' < 2 ^ (p + 1) * 2 ^ e' := Nat.mul_lt_mul_of_pos_right hm' (Nat.pos_of_ne_zero (by simp))
      have h5 : 2 ^ (p + 1) * 2 ^ e' = 2 ^ p * 2 ^ (e' + 1) := by ring
      have h6 : 2 ^ p * 2 ^ (e' + 1) ≤ 2 ^ p * 2 ^ e := Nat.mul_le_mul_left _ h3
      omega

theorem le_roundCode {n b : Nat} (h : magnitude p b ≤ n) : b ≤ roundCode p n := by
  obtain ⟨e', m', rfl, hm', he'⟩ := code_cases p b
  rw [magnitude_code hm'.le he'] at h
  have hs := significand_bounds p n
  have h2 : 2 ^ (p + 1) = 2 * 2 ^ p := by ring
  have hp : 0 < 2 ^ p := Nat.pos_of_ne_zero (by simp)
  unfold roundCode
  have hc := exponent_cases p n
  generalize Nat.log 2 n - p = e at *
  have hd : 0 < 2 ^ e := Nat.pos_of_ne_zero (by simp)
  rcases Nat.lt_trichotomy e e' with hlt | rfl | hlt
  · exfalso
    rcases he' with rfl | he'
    · omega
    have h3 : 2 ^ (e + 1) ≤ 2 ^ e' := Nat.pow_le_pow_right (by norm_num) hlt
    have h4 : 2 ^ p * 2 ^ (e + 1) ≤ m' * 2 ^ e' := Nat.mul_le_mul he' h3
    have h5 : 2 ^ (p + 1) * 2 ^ e = 2 ^ p * 2 ^ (e + 1) := by ring
    rcases hc with ⟨rfl, h1⟩ | ⟨_, _, h1⟩
    · simp only [zero_add, pow_zero, mul_one, pow_one] at *
      omega
    · omega
  · have : m' ≤ n / 2 ^ e := (Nat.le_div_iff_mul_le hd).mpr h
    have := le_roundHalfEven n (2 ^ e)
    omega
  · have : (e' + 1) * 2 ^ p ≤ e * 2 ^ p := Nat.mul_le_mul_right _ hlt
    rcases hs.2 with rfl | h3
    · omega
    · nlinarith

theorem roundCode_mono {n n' : Nat} (h : n ≤ n') : roundCode p n ≤ roundCode p n' := by
  by_cases h' : magnitude p (roundCode p n) ≤ n'
  · exact le_roundCode h'
  · -- `n'` is between `n` and what `n` is rounded to
    by_contra hc
    have h1 : n' ≤ magnitude p (roundCode p n) := by omega
    have h2 := roundCode_le (p := p) h1
    -- `roundCode n' < roundCode n`, so its magnitude is at most `n`
    have hd : 0 < 2 ^ (Nat.log 2 n - p) := Nat.pos_of_ne_zero (by simp)
    by_cases h3 : n ≤ magnitude p (roundCode p n')
    · exact hc (roundCode_le h3)
    · have h4 := le_roundCode (p := p) (n := n') (b := roundCode p n')
      -- the exponents are equal, or `n'` is in the next binade
      unfold roundCode at hc
      have hl : Nat.log 2 n ≤ Nat.log 2 n' := Nat.log_mono_right h
      have hs := significand_bounds p n
      have hs' := significand_bounds p n'
      rcases Nat.lt_or_ge (Nat.log 2 n - p) (Nat.log 2 n' - p) with hlt | hge
      · have hp : 0 < 2 ^ p := Nat.pos_of_ne_zero (by simp)
        have h5 : (Nat.log 2 n - p + 1) * 2 ^ p ≤ (Nat.log 2 n' - p) * 2 ^ p := Nat.mul_le_mul_right _ hlt
        have h6 : 2 ^ (p + 1) = 2 * 2 ^ p := by ring
        rcases hs'.2 with h7 | h7
        · omega
        · nlinarith
      · have he : Nat.log 2 n' - p = Nat.log 2 n - p := by omega
        rw [he] at hc
        apply hc
        apply Nat.add_le_add_left
        generalize 2 ^ (Nat.log 2 n - p) = d at hd
        rcases Nat.lt_or_ge (n / d) (n' / d) with hq | hq
        · exact (roundHalfEven_le n d).trans (Nat.le_trans hq (le_roundHalfEven n' d))
        · have hq' : n / d = n' / d := Nat.le_antisymm (Nat.div_le_div_right h) hq
          have e1 := Nat.div_add_mod n d
          have e2 := Nat.div_add_mod n' d
          rw [hq'] at e1
          unfold roundHalfEven
          rw [hq']
          have : n % d ≤ n' % d := by omega
          split <;> split <;> (try split) <;> (try split) <;> (try split) <;> omega

theorem roundCode_magnitude (p b : Nat) : roundCode p (magnitude p b) = b :=
  Nat.le_antisymm (roundCode_le le_rfl) (le_roundCode le_rfl)

theorem magnitude_lt {a b : Nat} (h : a < b) : magnitude p a < magnitude p b := by
  by_contra hc
  have := le_roundCode (p := p) (n := magnitude p a) (b := b) (by omega)
  rw [roundCode_magnitude] at this
  omega

theorem magnitude_lt_iff {a b : Nat} : magnitude p a < magnitude p b ↔ a < b := by
  refine ⟨fun h => ?_, magnitude_lt⟩
  by_contra hc
  rcases Nat.lt_or_eq_of_le (Nat.not_lt.mp hc) with h' | rfl
  · have := magnitude_lt (p := p) h'; omega
  · omega

theorem magnitude_le_iff {a b : Nat} : magnitude p a ≤ magnitude p b ↔ a ≤ b := by
  rw [← Nat.not_lt, ← Nat.not_lt, magnitude_lt_iff]

theorem magnitude_injective {a b : Nat} (h : magnitude p a = magnitude p b) : a = b := by
  rw [← roundCode_magnitude p a, h, roundCode_magnitude]

/-- What has a significand of `p + 1` bits is a magnitude. -/
theorem magnitude_roundCode_of_representable {m e : Nat} (hm : m ≤ 2 ^ (p + 1)) :
    magnitude p (roundCode p (m * 2 ^ e)) = m * 2 ^ e := by
  have key : ∃ b, magnitude p b = m * 2 ^ e := by
    induction e generalizing m with
    | zero => exact ⟨0 * 2 ^ p + m, magnitude_code hm (.inl rfl)⟩
    | succ e ih =>
      by_cases h : 2 ^ p ≤ m
      · exact ⟨(e + 1) * 2 ^ p + m, magnitude_code hm (.inr h)⟩
      · obtain ⟨b, hb⟩ := ih (m := 2 * m) (by rw [pow_succ]; omega)
        exact ⟨b, by rw [hb]; ring⟩
  obtain ⟨b, hb⟩ := key
  rw [← hb, roundCode_magnitude]

/-- Rounding results in a nearest magnitude. -/
theorem roundCode_nearest (p n b : Nat) :
    |(magnitude p (roundCode p n) : Int) - n| ≤ |(magnitude p b : Int) - n| := by
  have hv := magnitude_roundCode p n
  have hc := exponent_cases p n
  generalize he : Nat.log 2 n - p = e at hv hc
  have hd : 0 < 2 ^ e := Nat.pos_of_ne_zero (by simp)
  have hdm := Nat.div_add_mod n (2 ^ e)
  have hlt := Nat.mod_lt n hd
  have hq : n / 2 ^ e < 2 ^ (p + 1) := by
    rw [Nat.div_lt_iff_lt_mul hd]
    rcases hc with ⟨rfl, h⟩ | ⟨_, _, h⟩
    · simpa using h
    · exact h
  have hq' : e = 0 ∨ 2 ^ p ≤ n / 2 ^ e := by
    rcases hc with ⟨rfl, h⟩ | ⟨_, h, _⟩
    · exact .inl rfl
    · exact .inr ((Nat.le_div_iff_mul_le hd).mpr h)
  have h1 := magnitude_code (p := p) (e := e) hq.le hq'
  have h2 := magnitude_code (p := p) (e := e) (m := n / 2 ^ e + 1) hq (hq'.imp_right (by omega))
  have hb : magnitude p b ≤ 2 ^ e * (n / 2 ^ e) ∨ 2 ^ e * (n / 2 ^ e) + 2 ^ e ≤ magnitude p b := by
    rcases Nat.lt_or_ge b (e * 2 ^ p + (n / 2 ^ e + 1)) with h | h
    · have := magnitude_le_iff (p := p).mpr (show b ≤ e * 2 ^ p + n / 2 ^ e by omega)
      rw [h1, Nat.mul_comm] at this
      exact .inl this
    · have := magnitude_le_iff (p := p).mpr h
      rw [h2, Nat.add_mul, Nat.one_mul, Nat.mul_comm] at this
      exact .inr this
  have hr : magnitude p (roundCode p n) = 2 ^ e * (n / 2 ^ e) ∧ 2 * (n % 2 ^ e) ≤ 2 ^ e ∨
      magnitude p (roundCode p n) = 2 ^ e * (n / 2 ^ e) + 2 ^ e ∧ 2 ^ e ≤ 2 * (n % 2 ^ e) := by
    rw [hv]
    unfold roundHalfEven
    split
    · exact .inl ⟨Nat.mul_comm _ _, by omega⟩
    · split
      · exact .inr ⟨by ring, by omega⟩
      · split
        · exact .inl ⟨Nat.mul_comm _ _, by omega⟩
        · exact .inr ⟨by ring, by omega⟩
  generalize 2 ^ e * (n / 2 ^ e) = a at *
  generalize n % 2 ^ e = r at *
  generalize 2 ^ e = d at *
  generalize magnitude p (roundCode p n) = v at *
  generalize magnitude p b = w at *
  rcases abs_cases ((v : Int) - n) with ⟨h3, _⟩ | ⟨h3, _⟩ <;>
    rcases abs_cases ((w : Int) - n) with ⟨h4, _⟩ | ⟨h4, _⟩ <;> rw [h3, h4] <;> omega

end Verif.Core.Numbers
