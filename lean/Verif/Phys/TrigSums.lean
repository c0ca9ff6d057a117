import Mathlib.Analysis.SpecialFunctions.Trigonometric.Basic
import Mathlib.Algebra.BigOperators.Field
import Mathlib.Tactic.Ring
import Mathlib.Tactic.FieldSimp
import Mathlib.Tactic.LinearCombination
import Mathlib.Tactic.Linarith

/-!
# Sums of cosines over equally spaced angles

Background for the normal mode matrices (properties C35 and C36).  Nothing here models code.
-/

namespace Verif.Trig

open Real Finset

/-- Telescoping sum. -/
theorem cos_sum_mul (x φ : ℝ) (n : ℕ) :
    2 * sin (x / 2) * ∑ j ∈ range n, cos (j * x + φ)
      = sin (n * x + φ - x / 2) - sin (φ - x / 2) := by
  induction n with
  | zero => simp
  | succ n ih =>
    rw [sum_range_succ, mul_add, ih]
    have h := sin_sub_sin ((n : ℝ) * x + φ + x / 2) ((n : ℝ) * x + φ - x / 2)
    have e1 : ((n : ℝ) * x + φ + x / 2 - (n * x + φ - x / 2)) / 2 = x / 2 := by ring
    have e2 : ((n : ℝ) * x + φ + x / 2 + (n * x + φ - x / 2)) / 2 = n * x + φ := by ring
    rw [e1, e2] at h
    have e3 : ((n + 1 : ℕ) : ℝ) * x + φ - x / 2 = n * x + φ + x / 2 := by push_cast; ring
    rw [e3]
    linear_combination -h

/-- The sum over a full period vanishes unless every term is the same. -/
theorem cos_sum (n : ℕ) (hn : 0 < n) (k : ℤ) (φ : ℝ) :
    ∑ j ∈ range n, cos (j * (2 * π * k / n) + φ) = if (n : ℤ) ∣ k then n * cos φ else 0 := by
  have hn' : (n : ℝ) ≠ 0 := by positivity
  by_cases hk : (n : ℤ) ∣ k
  · rw [if_pos hk]
    obtain ⟨m, rfl⟩ := hk
    have e : ∀ j ∈ range n, cos (j * (2 * π * ((n : ℤ) * m : ℤ) / n) + φ) = cos φ := by
      intro j _
      have : (j : ℝ) * (2 * π * ((n : ℤ) * m : ℤ) / n) + φ
          = φ + ((j : ℤ) * m : ℤ) * (2 * π) := by
        push_cast; field_simp; ring
      rw [this, cos_add_int_mul_two_pi]
    rw [sum_congr rfl e]; simp
  · rw [if_neg hk]
    have hs : sin (2 * π * k / n / 2) ≠ 0 := by
      intro h0
      obtain ⟨m, hm⟩ := sin_eq_zero_iff.1 h0
      apply hk
      refine ⟨m, ?_⟩
      have : (m : ℝ) * n = k := by
        have hpi := pi_ne_zero
        field_simp at hm
        nlinarith [hm]
      have : (m * n : ℤ) = k := by exact_mod_cast this
      rw [← this]; ring
    have h := cos_sum_mul (2 * π * k / n) φ n
    have e : (n : ℝ) * (2 * π * k / n) + φ - 2 * π * k / n / 2
        = (φ - 2 * π * k / n / 2) + k * (2 * π) := by field_simp; ring
    rw [e, sin_add_int_mul_two_pi, sub_self] at h
    rcases mul_eq_zero.1 h with h | h
    · exact absurd h (by simpa using hs)
    · exact h

theorem sin_sum (n : ℕ) (hn : 0 < n) (k : ℤ) :
    ∑ j ∈ range n, sin (j * (2 * π * k / n)) = 0 := by
  have h := cos_sum n hn k (-(π / 2))
  have e : ∀ j ∈ range n, cos (j * (2 * π * k / n) + -(π / 2)) = sin (j * (2 * π * k / n)) := by
    intro j _
    rw [← sub_eq_add_neg, cos_sub_pi_div_two]
  rw [sum_congr rfl e] at h
  rw [h]; simp

/-- How often the two angles agree: `n` if `n` divides `k` and zero otherwise. -/
noncomputable def per (n : ℕ) (k : ℤ) : ℝ := if (n : ℤ) ∣ k then n else 0

theorem cos_cos (n : ℕ) (hn : 0 < n) (a b : ℤ) :
    ∑ j ∈ range n, cos (j * (2 * π * a / n)) * cos (j * (2 * π * b / n))
      = (per n (a - b) + per n (a + b)) / 2 := by
  have e : ∀ j ∈ range n, cos (j * (2 * π * a / n)) * cos (j * (2 * π * b / n))
      = (cos (j * (2 * π * (a - b : ℤ) / n) + 0) + cos (j * (2 * π * (a + b : ℤ) / n) + 0)) / 2 := by
    intro j _
    have e1 : (j : ℝ) * (2 * π * (a - b : ℤ) / n) + 0
        = j * (2 * π * a / n) - j * (2 * π * b / n) := by push_cast; ring
    have e2 : (j : ℝ) * (2 * π * (a + b : ℤ) / n) + 0
        = j * (2 * π * a / n) + j * (2 * π * b / n) := by push_cast; ring
    rw [e1, e2, cos_sub, cos_add]; ring
  rw [sum_congr rfl e, ← sum_div, sum_add_distrib, cos_sum n hn, cos_sum n hn]
  simp [per]

theorem sin_sin (n : ℕ) (hn : 0 < n) (a b : ℤ) :
    ∑ j ∈ range n, sin (j * (2 * π * a / n)) * sin (j * (2 * π * b / n))
      = (per n (a - b) - per n (a + b)) / 2 := by
  have e : ∀ j ∈ range n, sin (j * (2 * π * a / n)) * sin (j * (2 * π * b / n))
      = (cos (j * (2 * π * (a - b : ℤ) / n) + 0) - cos (j * (2 * π * (a + b : ℤ) / n) + 0)) / 2 := by
    intro j _
    have e1 : (j : ℝ) * (2 * π * (a - b : ℤ) / n) + 0
        = j * (2 * π * a / n) - j * (2 * π * b / n) := by push_cast; ring
    have e2 : (j : ℝ) * (2 * π * (a + b : ℤ) / n) + 0
        = j * (2 * π * a / n) + j * (2 * π * b / n) := by push_cast; ring
    rw [e1, e2, cos_sub, cos_add]; ring
  rw [sum_congr rfl e, ← sum_div, sum_sub_distrib, cos_sum n hn, cos_sum n hn]
  simp [per]

theorem cos_sin (n : ℕ) (hn : 0 < n) (a b : ℤ) :
    ∑ j ∈ range n, cos (j * (2 * π * a / n)) * sin (j * (2 * π * b / n)) = 0 := by
  have e : ∀ j ∈ range n, cos (j * (2 * π * a / n)) * sin (j * (2 * π * b / n))
      = (sin (j * (2 * π * (b + a : ℤ) / n)) + sin (j * (2 * π * (b - a : ℤ) / n))) / 2 := by
    intro j _
    have e1 : (j : ℝ) * (2 * π * (b - a : ℤ) / n)
        = j * (2 * π * b / n) - j * (2 * π * a / n) := by push_cast; ring
    have e2 : (j : ℝ) * (2 * π * (b + a : ℤ) / n)
        = j * (2 * π * b / n) + j * (2 * π * a / n) := by push_cast; ring
    rw [e1, e2, sin_sub, sin_add]; ring
  rw [sum_congr rfl e, ← sum_div, sum_add_distrib, sin_sum n hn, sin_sum n hn]
  simp

/-- The sum over half a period with half-integer points. -/
theorem cos_half_sum (n : ℕ) (hn : 0 < n) (k : ℤ) (hk : ¬ (2 * n : ℤ) ∣ k) :
    ∑ j ∈ range n, cos ((j + 1 / 2) * (π * k / n)) = sin (π * k) / (2 * sin (π * k / n / 2)) := by
  have hn' : (n : ℝ) ≠ 0 := by positivity
  have hs : sin (π * k / n / 2) ≠ 0 := by
    intro h0
    obtain ⟨m, hm⟩ := sin_eq_zero_iff.1 h0
    apply hk
    refine ⟨m, ?_⟩
    have : (m : ℝ) * (2 * n) = k := by
      have hpi := pi_pos
      field_simp at hm
      nlinarith [hm]
    have : (m * (2 * n) : ℤ) = k := by exact_mod_cast this
    rw [← this]; ring
  have h := cos_sum_mul (π * k / n) (π * k / n / 2) n
  have e1 : (n : ℝ) * (π * k / n) + π * k / n / 2 - π * k / n / 2 = π * k := by field_simp; ring
  rw [e1, sub_self, sin_zero, sub_zero] at h
  have e2 : ∀ j ∈ range n, cos ((j + 1 / 2) * (π * k / n)) = cos (j * (π * k / n) + π * k / n / 2) := by
    intro j _
    congr 1; ring
  rw [sum_congr rfl e2, eq_div_iff (by simpa using hs)]
  linarith [h]

theorem cos_half_sum_zero (n : ℕ) (hn : 0 < n) (k : ℤ) (hk : ¬ (2 * n : ℤ) ∣ k) :
    ∑ j ∈ range n, cos ((j + 1 / 2) * (π * k / n)) = 0 := by
  rw [cos_half_sum n hn k hk]
  have : sin (π * k) = 0 := by
    rw [mul_comm]; exact sin_int_mul_pi k
  rw [this, zero_div]

/-- Products of open path modes. -/
theorem cos_cos_half (n : ℕ) (hn : 0 < n) (a b : ℕ) (ha : a < n) (hb : b < n) :
    ∑ j ∈ range n, cos ((j + 1 / 2) * (π * a / n)) * cos ((j + 1 / 2) * (π * b / n))
      = if a = b then (if a = 0 then (n : ℝ) else n / 2) else 0 := by
  have e : ∀ j ∈ range n, cos ((j + 1 / 2) * (π * a / n)) * cos ((j + 1 / 2) * (π * b / n))
      = (cos ((j + 1 / 2) * (π * ((a : ℤ) - b : ℤ) / n))
        + cos ((j + 1 / 2) * (π * ((a : ℤ) + b : ℤ) / n))) / 2 := by
    intro j _
    have e1 : ((j : ℝ) + 1 / 2) * (π * ((a : ℤ) - b : ℤ) / n)
        = (j + 1 / 2) * (π * a / n) - (j + 1 / 2) * (π * b / n) := by push_cast; ring
    have e2 : ((j : ℝ) + 1 / 2) * (π * ((a : ℤ) + b : ℤ) / n)
        = (j + 1 / 2) * (π * a / n) + (j + 1 / 2) * (π * b / n) := by push_cast; ring
    rw [e1, e2, cos_sub, cos_add]; ring
  rw [sum_congr rfl e, ← sum_div, sum_add_distrib]
  by_cases hab : a = b
  · subst hab
    rw [if_pos rfl]
    by_cases h0 : a = 0
    · subst h0; simp
    · rw [if_neg h0, cos_half_sum_zero n hn (a + a)]
      · simp
      · rintro ⟨m, hm⟩
        have hm1 : 0 < m := by
          rcases lt_trichotomy m 0 with h | h | h
          · nlinarith
          · subst h; omega
          · exact h
        nlinarith
  · rw [if_neg hab, cos_half_sum_zero n hn (a - b), cos_half_sum_zero n hn (a + b)]
    · simp
    · rintro ⟨m, hm⟩
      have hm1 : 0 < m := by
        rcases lt_trichotomy m 0 with h | h | h
        · nlinarith
        · subst h; omega
        · exact h
      nlinarith
    · rintro ⟨m, hm⟩
      rcases lt_trichotomy m 0 with h | h | h
      · nlinarith
      · subst h; omega
      · nlinarith

end Verif.Trig
