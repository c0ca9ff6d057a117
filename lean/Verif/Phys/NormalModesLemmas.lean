import Mathlib.Analysis.Real.Sqrt
import Mathlib.LinearAlgebra.Matrix.NonsingularInverse
import Verif.Phys.TrigSums
import Verif.Phys.NormalModes

/-!
# Orthogonality of the normal mode matrices
-/

namespace Verif.Nm

open Real Finset Verif.Trig

/-- Amplitude of a mode. -/
noncomputable def amp (n i : ℕ) : ℝ := if i = 0 ∨ 2 * i = n then 1 else √2

theorem angle (n i j : ℕ) : 2 * π * j * i / n = (j : ℝ) * (2 * π * ((i : ℤ) : ℝ) / n) := by
  push_cast; ring

/-- One formula for all the entries. -/
theorem nmEntry_eq (n i j : ℕ) (hn : 0 < n) :
    nmEntry n i j = amp n i *
      (if 2 * i ≤ n then cos (j * (2 * π * ((i : ℤ) : ℝ) / n))
        else sin (j * (2 * π * ((i : ℤ) : ℝ) / n))) := by
  have hn' : (n : ℝ) ≠ 0 := by positivity
  unfold nmEntry amp
  by_cases h1 : n % 2 = 0 ∧ i = n / 2
  · rw [if_pos h1]
    have h2 : 2 * i = n := by omega
    have h3 : 2 * i ≤ n := by omega
    rw [if_pos (Or.inr h2), if_pos h3, one_mul]
    have e : (j : ℝ) * (2 * π * ((i : ℤ) : ℝ) / n) = j * π := by
      have : (2 * i : ℝ) = n := by exact_mod_cast h2
      push_cast
      rw [← this]
      have hi : (i : ℝ) ≠ 0 := by
        intro h0; rw [h0, mul_zero] at this; exact hn' this.symm
      field_simp
    rw [e, cos_nat_mul_pi]
    by_cases hj : j % 2 = 0
    · rw [if_pos hj, Even.neg_one_pow (Nat.even_iff.2 hj)]
    · rw [if_neg hj, Odd.neg_one_pow (Nat.odd_iff.2 (by omega))]
  · rw [if_neg h1]
    by_cases h0 : i = 0
    · subst h0; simp
    · have h2 : ¬ 2 * i = n := by omega
      have h4 : ¬ (i = 0 ∨ 2 * i = n) := by simp [h0, h2]
      rw [if_neg h0, if_neg h4]
      by_cases h3 : i < n / 2 + 1
      · have h5 : 2 * i ≤ n := by omega
        rw [if_pos h3, if_pos h5, angle]
      · have h5 : ¬ 2 * i ≤ n := by omega
        rw [if_neg h3, if_neg h5, angle]

theorem sum_fin_range (n : ℕ) (f : ℕ → ℝ) : ∑ j : Fin n, f j = ∑ j ∈ range n, f j :=
  Fin.sum_univ_eq_sum_range f n

theorem per_zero (n : ℕ) : per n 0 = n := by simp [per]

theorem per_self (n : ℕ) : per n n = n := by simp [per]

theorem per_small (n : ℕ) (k : ℤ) (h0 : k ≠ 0) (h1 : -(n : ℤ) < k) (h2 : k < n) : per n k = 0 := by
  unfold per
  rw [if_neg]
  rintro ⟨m, rfl⟩
  rcases lt_trichotomy m 0 with h | h | h
  · nlinarith
  · subst h; simp at h0
  · nlinarith

theorem per_mid (n : ℕ) (k : ℤ) (h1 : (n : ℤ) < k) (h2 : k < 2 * n) : per n k = 0 := by
  unfold per
  rw [if_neg]
  rintro ⟨m, rfl⟩
  have : 1 < m := by nlinarith
  nlinarith

/-- Rows of the closed path matrix are orthogonal with norm `n`. -/
theorem entry_orth (n i k : ℕ) (hn : 0 < n) (hi : i < n) (hk : k < n) :
    ∑ j ∈ range n, nmEntry n i j * nmEntry n k j = if i = k then (n : ℝ) else 0 := by
  have s2 : √2 * √2 = (2 : ℝ) := Real.mul_self_sqrt (by norm_num)
  have e : ∀ j ∈ range n, nmEntry n i j * nmEntry n k j = amp n i * amp n k *
      ((if 2 * i ≤ n then cos (j * (2 * π * ((i : ℤ) : ℝ) / n))
        else sin (j * (2 * π * ((i : ℤ) : ℝ) / n))) *
       (if 2 * k ≤ n then cos (j * (2 * π * ((k : ℤ) : ℝ) / n))
        else sin (j * (2 * π * ((k : ℤ) : ℝ) / n)))) := by
    intro j _
    rw [nmEntry_eq n i j hn, nmEntry_eq n k j hn]; ring
  rw [sum_congr rfl e, ← mul_sum]
  by_cases hi2 : 2 * i ≤ n
  · by_cases hk2 : 2 * k ≤ n
    · simp only [hi2, hk2, if_true]
      rw [cos_cos n hn]
      by_cases hik : i = k
      · subst hik
        rw [if_pos rfl, sub_self, per_zero]
        unfold amp
        by_cases h0 : i = 0
        · subst h0; simp [per_zero]
        · by_cases h2 : 2 * i = n
          · have : ((i : ℤ) + i) = n := by omega
            rw [this, per_self]; simp [h2]
          · rw [if_neg (by simp [h0, h2]), per_small n _ (by omega) (by omega) (by omega), s2]
            ring
      · rw [if_neg hik, per_small n _ (by omega) (by omega) (by omega),
          per_small n _ (by omega) (by omega) (by omega)]
        simp
    · simp only [hi2, hk2, if_true, if_false]
      rw [cos_sin n hn, if_neg (by omega), mul_zero]
  · by_cases hk2 : 2 * k ≤ n
    · simp only [hi2, hk2, if_true, if_false]
      have c : ∀ j ∈ range n, sin (j * (2 * π * ((i : ℤ) : ℝ) / n)) * cos (j * (2 * π * ((k : ℤ) : ℝ) / n))
          = cos (j * (2 * π * ((k : ℤ) : ℝ) / n)) * sin (j * (2 * π * ((i : ℤ) : ℝ) / n)) := by
        intro j _; ring
      rw [sum_congr rfl c, cos_sin n hn, if_neg (by omega), mul_zero]
    · simp only [hi2, hk2, if_false]
      rw [sin_sin n hn, per_mid n ((i : ℤ) + k) (by omega) (by omega)]
      by_cases hik : i = k
      · subst hik
        rw [if_pos rfl, sub_self, per_zero]
        unfold amp
        rw [if_neg (by omega), s2]; ring
      · rw [if_neg hik, per_small n _ (by omega) (by omega) (by omega)]
        simp

theorem o_entry_orth (n i k : ℕ) (hn : 0 < n) (hi : i < n) (hk : k < n) :
    ∑ j ∈ range n, oEntry n i j * oEntry n k j = if i = k then (n : ℝ) else 0 := by
  have s2 : √2 * √2 = (2 : ℝ) := Real.mul_self_sqrt (by norm_num)
  have f : ∀ a j : ℕ, oEntry n a j = (if a = 0 then 1 else √2) * cos ((j + 1 / 2) * (π * a / n)) := by
    intro a j
    unfold oEntry
    by_cases ha : a = 0
    · subst ha; simp
    · rw [if_neg ha, if_neg ha]; congr 2; ring
  have e : ∀ j ∈ range n, oEntry n i j * oEntry n k j
      = (if i = 0 then 1 else √2) * (if k = 0 then 1 else √2) *
        (cos ((j + 1 / 2) * (π * i / n)) * cos ((j + 1 / 2) * (π * k / n))) := by
    intro j _
    rw [f, f]; ring
  rw [sum_congr rfl e, ← mul_sum, cos_cos_half n hn i k hi hk]
  by_cases hik : i = k
  · subst hik
    rw [if_pos rfl, if_pos rfl]
    by_cases h0 : i = 0
    · simp [h0]
    · rw [if_neg h0, if_neg h0, s2]; ring
  · rw [if_neg hik, if_neg hik, mul_zero]

/-- A matrix whose rows are orthogonal with norm `n`, divided by `√n`, is orthogonal. -/
theorem orth_of_entry (n : ℕ) (e : ℕ → ℕ → ℝ) (M : Matrix (Fin n) (Fin n) ℝ)
    (hM : ∀ i j, M i j = e i j / √n)
    (h : ∀ i k, i < n → k < n → ∑ j ∈ range n, e i j * e k j = if i = k then (n : ℝ) else 0) :
    M * M.transpose = 1 := by
  ext i k
  have hn : (0 : ℝ) < n := by exact_mod_cast i.pos
  have hs : √(n : ℝ) * √n = n := Real.mul_self_sqrt hn.le
  rw [Matrix.mul_apply]
  have : ∀ j : Fin n, M i j * M.transpose j k = e i j * e k j / n := by
    intro j
    rw [Matrix.transpose_apply, hM, hM, div_mul_div_comm, hs]
  rw [sum_congr rfl (fun j _ => this j), ← sum_div, sum_fin_range n (fun j => e i j * e k j),
    h i k i.2 k.2]
  by_cases hik : i = k
  · subst hik; simp [hn.ne']
  · have : (i : ℕ) ≠ k := fun hh => hik (Fin.ext hh)
    simp [this, Matrix.one_apply_ne hik]

theorem mkNm_orth (n : ℕ) : mkNm n * (mkNm n).transpose = 1 :=
  orth_of_entry n (nmEntry n) _ (fun _ _ => rfl) (fun i k hi hk => entry_orth n i k (by omega) hi hk)

theorem mkONm_orth (n : ℕ) : mkONm n * (mkONm n).transpose = 1 :=
  orth_of_entry n (oEntry n) _ (fun _ _ => rfl) (fun i k hi hk => o_entry_orth n i k (by omega) hi hk)

theorem mkNm_orth' (n : ℕ) : (mkNm n).transpose * mkNm n = 1 := mul_eq_one_comm.1 (mkNm_orth n)

theorem mkONm_orth' (n : ℕ) : (mkONm n).transpose * mkONm n = 1 :=
  mul_eq_one_comm.1 (mkONm_orth n)

theorem apply_eq {n m : ℕ} (M : Matrix (Fin n) (Fin m) ℝ) (v : Fin m → ℝ) :
    apply M v = M.mulVec v := rfl

theorem apply_apply {n m l : ℕ} (A : Matrix (Fin n) (Fin m) ℝ) (B : Matrix (Fin m) (Fin l) ℝ)
    (v : Fin l → ℝ) : apply A (apply B v) = apply (A * B) v := by
  rw [apply_eq, apply_eq, apply_eq, Matrix.mulVec_mulVec]

theorem apply_one {n : ℕ} (v : Fin n → ℝ) : apply (1 : Matrix (Fin n) (Fin n) ℝ) v = v := by
  rw [apply_eq, Matrix.one_mulVec]

end Verif.Nm
