import Verif.Phys.MatrixExp
import Verif.Props.C47_Gle
import Mathlib.Analysis.Normed.Algebra.MatrixExponential
import Mathlib.Analysis.SpecialFunctions.Exponential
import Mathlib.Analysis.Complex.ExponentialBounds

/-!
# C116: the drift of a thermostat and of a barostat over a step is the exponential of the matrix
-/

namespace Verif.MatrixExp

open Matrix NormedSpace Finset
open scoped Nat

section Gen

variable {𝔸 : Type*} [NormedRing 𝔸] [NormedAlgebra ℝ 𝔸] [CompleteSpace 𝔸]

/-- The sum of the first terms of the series. -/
noncomputable def part (k : ℕ) (x : 𝔸) : 𝔸 := ∑ i ∈ range k, (i ! : ℝ)⁻¹ • x ^ i

theorem real_tail {r : ℝ} (hr : 0 ≤ r) (k : ℕ) :
    ∑' i : ℕ, ((i + k) ! : ℝ)⁻¹ * r ^ (i + k) ≤ r ^ k / k ! * Real.exp r := by
  have hs : Summable fun i : ℕ => (i ! : ℝ)⁻¹ * r ^ i := by
    simpa [div_eq_inv_mul] using Real.summable_pow_div_factorial r
  have he : Real.exp r = ∑' i : ℕ, (i ! : ℝ)⁻¹ * r ^ i := by
    rw [Real.exp_eq_exp_ℝ, NormedSpace.exp_eq_tsum ℝ]
    rfl
  rw [he, ← tsum_mul_left]
  refine Summable.tsum_le_tsum (fun i => ?_) ((summable_nat_add_iff k).2 hs) (hs.mul_left _)
  have h1 : ((k ! : ℝ) * i !) ≤ ((i + k) ! : ℝ) := by
    have := Nat.le_of_dvd (Nat.factorial_pos _) (Nat.factorial_mul_factorial_dvd_factorial_add i k)
    rw [mul_comm]
    exact_mod_cast this
  have h2 : (((i + k) ! : ℝ))⁻¹ ≤ ((k ! : ℝ) * i !)⁻¹ := inv_anti₀ (by positivity) h1
  calc ((i + k) ! : ℝ)⁻¹ * r ^ (i + k) ≤ ((k ! : ℝ) * i !)⁻¹ * r ^ (i + k) :=
        mul_le_mul_of_nonneg_right h2 (by positivity)
    _ = r ^ k / k ! * ((i ! : ℝ)⁻¹ * r ^ i) := by
        rw [pow_add]; field_simp

omit [CompleteSpace 𝔸] in
theorem summable_norm_terms (x : 𝔸) : Summable fun i : ℕ => ‖(i ! : ℝ)⁻¹ • x ^ i‖ :=
  norm_expSeries_summable' (𝕂 := ℝ) x

/-- The terms that are left out. -/
theorem exp_tail (x : 𝔸) (k : ℕ) (hk : 0 < k) : ‖exp x - part k x‖ ≤ ‖x‖ ^ k / k ! * Real.exp ‖x‖ := by
  have hs := summable_norm_terms x
  have hs' : Summable fun i : ℕ => (i ! : ℝ)⁻¹ • x ^ i := hs.of_norm
  have e : exp x - part k x = ∑' i : ℕ, ((i + k) ! : ℝ)⁻¹ • x ^ (i + k) := by
    rw [NormedSpace.exp_eq_tsum ℝ]
    dsimp only
    rw [← hs'.sum_add_tsum_nat_add k, part, add_sub_cancel_left]
  rw [e]
  refine le_trans (norm_tsum_le_tsum_norm ((summable_nat_add_iff k).2 hs)) (le_trans ?_ (real_tail (norm_nonneg x) k))
  have hr : Summable fun i : ℕ => (i ! : ℝ)⁻¹ * ‖x‖ ^ i := by
    simpa [div_eq_inv_mul] using Real.summable_pow_div_factorial ‖x‖
  refine Summable.tsum_le_tsum (fun i => ?_) ((summable_nat_add_iff k).2 hs)
    ((summable_nat_add_iff k (f := fun i : ℕ => (i ! : ℝ)⁻¹ * ‖x‖ ^ i)).2 hr)
  rw [norm_smul, Real.norm_of_nonneg (by positivity)]
  exact mul_le_mul_of_nonneg_left (norm_pow_le' x (by omega)) (by positivity)

omit [CompleteSpace 𝔸] in
theorem part_norm [NormOneClass 𝔸] (x : 𝔸) (k : ℕ) : ‖part k x‖ ≤ Real.exp ‖x‖ := by
  have hr : Summable fun i : ℕ => (i ! : ℝ)⁻¹ * ‖x‖ ^ i := by
    simpa [div_eq_inv_mul] using Real.summable_pow_div_factorial ‖x‖
  have he : Real.exp ‖x‖ = ∑' i : ℕ, (i ! : ℝ)⁻¹ * ‖x‖ ^ i := by
    rw [Real.exp_eq_exp_ℝ, NormedSpace.exp_eq_tsum ℝ]
    rfl
  rw [he]
  refine le_trans (norm_sum_le _ _) (le_trans (Finset.sum_le_sum fun i _ => ?_)
    (hr.sum_le_tsum (range k) fun i _ => by positivity))
  rw [norm_smul, Real.norm_of_nonneg (by positivity)]
  exact mul_le_mul_of_nonneg_left (norm_pow_le x i) (by positivity)

theorem exp_norm [NormOneClass 𝔸] (x : 𝔸) : ‖exp x‖ ≤ Real.exp ‖x‖ := by
  have hs' : Summable fun i : ℕ => (i ! : ℝ)⁻¹ • x ^ i := (summable_norm_terms x).of_norm
  have ht := hs'.hasSum.tendsto_sum_nat
  have e : exp x = ∑' i : ℕ, (i ! : ℝ)⁻¹ • x ^ i := by rw [NormedSpace.exp_eq_tsum ℝ]
  rw [← e] at ht
  exact le_of_tendsto' ht.norm fun k => part_norm x k

omit [NormedAlgebra ℝ 𝔸] [CompleteSpace 𝔸] in
/-- The difference of two powers. -/
theorem pow_diff [NormOneClass 𝔸] {a b : 𝔸} {c d : ℝ} (hc : 0 ≤ c) (ha : ‖a‖ ≤ c) (hb : ‖b‖ ≤ c) (hd : ‖a - b‖ ≤ d)
    (N : ℕ) : ‖a ^ N - b ^ N‖ ≤ N * c ^ (N - 1) * d := by
  induction N with
  | zero => simp
  | succ N ih =>
    have e : a ^ (N + 1) - b ^ (N + 1) = (a ^ N - b ^ N) * a + b ^ N * (a - b) := by
      rw [pow_succ, pow_succ]; noncomm_ring
    have hd0 : 0 ≤ d := le_trans (norm_nonneg _) hd
    have h1 : ‖(a ^ N - b ^ N) * a‖ ≤ N * c ^ N * d := by
      rcases Nat.eq_zero_or_pos N with rfl | hN
      · simp
      · refine le_trans (norm_mul_le _ _) (le_trans (mul_le_mul ih ha (norm_nonneg _) (by positivity)) (le_of_eq ?_))
        obtain ⟨k, rfl⟩ := Nat.exists_eq_succ_of_ne_zero hN.ne'
        simp only [Nat.succ_eq_add_one, Nat.add_sub_cancel, pow_succ]
        ring
    have h2 : ‖b ^ N * (a - b)‖ ≤ c ^ N * d :=
      le_trans (norm_mul_le _ _) (mul_le_mul (le_trans (norm_pow_le _ _) (pow_le_pow_left₀ (norm_nonneg _) hb _)) hd
        (norm_nonneg _) (by positivity))
    rw [e, Nat.add_sub_cancel]
    refine le_trans (norm_add_le _ _) (le_trans (add_le_add h1 h2) (le_of_eq ?_))
    push_cast
    ring

end Gen

variable {n : ℕ}

theorem tc_eq (i : ℕ) : tc i = (i ! : ℝ)⁻¹ := by
  induction i with
  | zero => simp [tc]
  | succ i ih =>
    rw [tc, ih, Nat.factorial_succ]
    push_cast
    rw [mul_inv, div_eq_inv_mul]

theorem squarings_eq (k : ℕ) (E : Matrix (Fin n) (Fin n) ℝ) : squarings k E = E ^ 2 ^ k := by
  induction k generalizing E with
  | zero => simp [squarings]
  | succ k ih => rw [squarings, ih, ← pow_two, ← pow_mul, pow_succ']

theorem horner_eq (SM : Matrix (Fin n) (Fin n) ℝ) (k : ℕ) (E : Matrix (Fin n) (Fin n) ℝ) :
    horner SM k E = SM ^ k * E + ∑ i ∈ range k, (i ! : ℝ)⁻¹ • SM ^ i := by
  induction k generalizing E with
  | zero => simp [horner]
  | succ k ih =>
    rw [horner, ih, sum_range_succ, tc_eq, Matrix.mul_add, Matrix.mul_smul, Matrix.mul_one, ← Matrix.mul_assoc, ← pow_succ]
    abel

/-- **What is computed**: a power of a partial sum of the series. -/
theorem matrixExp_eq (M : Matrix (Fin n) (Fin n) ℝ) (nt ns : ℕ) :
    matrixExp M nt ns = (∑ i ∈ range (nt + 1), (i ! : ℝ)⁻¹ • (((2 : ℝ) ^ ns)⁻¹ • M) ^ i) ^ 2 ^ ns := by
  unfold matrixExp
  dsimp only
  rw [squarings_eq, horner_eq, sum_range_succ, tc_eq, Matrix.mul_smul, Matrix.mul_one, add_comm]

section Norm

attribute [local instance] Matrix.linftyOpNormedRing Matrix.linftyOpNormedAlgebra

theorem exp_split (M : Matrix (Fin n) (Fin n) ℝ) (ns : ℕ) : exp M = exp (((2 : ℝ) ^ ns)⁻¹ • M) ^ 2 ^ ns := by
  rw [← Matrix.exp_nsmul]
  congr 1
  rw [← Nat.cast_smul_eq_nsmul ℝ, smul_smul]
  push_cast
  rw [mul_inv_cancel₀ (by positivity), one_smul]

/-- **Exact for nilpotent matrices.** -/
theorem matrixExp_nilpotent {M : Matrix (Fin n) (Fin n) ℝ} {nt : ℕ} (h : M ^ (nt + 1) = 0) (ns : ℕ) :
    matrixExp M nt ns = exp M := by
  rw [matrixExp_eq, exp_split M ns]
  congr 1
  rw [NormedSpace.exp_eq_tsum ℝ]
  dsimp only
  rw [tsum_eq_sum (s := range (nt + 1))]
  intro i hi
  have : nt + 1 ≤ i := by simpa using hi
  obtain ⟨d, rfl⟩ := Nat.exists_eq_add_of_le this
  rw [smul_pow, pow_add M, h, Matrix.zero_mul, smul_zero, smul_zero]

theorem norm_rows [NeZero n] {M : Matrix (Fin n) (Fin n) ℝ} {r : ℝ} (hr : 0 ≤ r) : ‖M‖ ≤ r ↔ ∀ i, ∑ j, |M i j| ≤ r := by
  lift r to NNReal using hr
  rw [← coe_nnnorm, NNReal.coe_le_coe, Matrix.linfty_opNNNorm_def, Finset.sup_le_iff]
  refine ⟨fun h i => ?_, fun h i _ => ?_⟩
  · have := h i (mem_univ i)
    rw [← NNReal.coe_le_coe] at this
    simpa using this
  · rw [← NNReal.coe_le_coe]
    simpa using h i

/-- **The error**, in the sums of the absolute values of the rows. -/
theorem matrixExp_error [NeZero n] {M : Matrix (Fin n) (Fin n) ℝ} {r : ℝ} (hM : ∀ i, ∑ j, |M i j| ≤ r) (nt ns : ℕ) (i : Fin n) :
    ∑ j, |matrixExp M nt ns i j - (exp M : Matrix (Fin n) (Fin n) ℝ) i j|
      ≤ Real.exp r * 2 ^ ns * (r / 2 ^ ns) ^ (nt + 1) / (nt + 1)! := by
  have hr : 0 ≤ r := le_trans (Finset.sum_nonneg fun j _ => abs_nonneg _) (hM 0)
  have hn : NormOneClass (Matrix (Fin n) (Fin n) ℝ) := inferInstance
  have hMn : ‖M‖ ≤ r := (norm_rows hr).2 hM
  set x : Matrix (Fin n) (Fin n) ℝ := ((2 : ℝ) ^ ns)⁻¹ • M with hx
  have hxn : ‖x‖ ≤ r / 2 ^ ns := by
    rw [hx, norm_smul, Real.norm_of_nonneg (by positivity), div_eq_inv_mul]
    exact mul_le_mul_of_nonneg_left hMn (by positivity)
  have hpos : (0 : ℝ) ≤ r / 2 ^ ns := by positivity
  have hexp : Real.exp ‖x‖ ≤ Real.exp (r / 2 ^ ns) := Real.exp_le_exp.2 hxn
  have ha : ‖part (nt + 1) x‖ ≤ Real.exp (r / 2 ^ ns) := le_trans (part_norm x _) hexp
  have hb : ‖exp x‖ ≤ Real.exp (r / 2 ^ ns) := le_trans (exp_norm x) hexp
  have hd : ‖part (nt + 1) x - exp x‖ ≤ (r / 2 ^ ns) ^ (nt + 1) / (nt + 1)! * Real.exp (r / 2 ^ ns) := by
    rw [norm_sub_rev]
    refine le_trans (exp_tail x _ (Nat.succ_pos _)) (mul_le_mul ?_ hexp (Real.exp_pos _).le (by positivity))
    exact div_le_div_of_nonneg_right (pow_le_pow_left₀ (norm_nonneg _) hxn _) (by positivity)
  have h := pow_diff (Real.exp_pos _).le ha hb hd (2 ^ ns)
  have hfin : ((2 ^ ns : ℕ) : ℝ) * Real.exp (r / 2 ^ ns) ^ (2 ^ ns - 1)
        * ((r / 2 ^ ns) ^ (nt + 1) / (nt + 1)! * Real.exp (r / 2 ^ ns))
      = Real.exp r * 2 ^ ns * (r / 2 ^ ns) ^ (nt + 1) / (nt + 1)! := by
    have e1 : Real.exp (r / 2 ^ ns) ^ (2 ^ ns - 1) * Real.exp (r / 2 ^ ns) = Real.exp r := by
      rw [← pow_succ, Nat.sub_add_cancel Nat.one_le_two_pow, ← Real.exp_nat_mul]
      congr 1
      push_cast
      field_simp
    rw [← e1]
    push_cast
    ring
  rw [hfin] at h
  have hb0 : 0 ≤ Real.exp r * 2 ^ ns * (r / 2 ^ ns) ^ (nt + 1) / (nt + 1)! := by positivity
  have h2 : ‖matrixExp M nt ns - exp M‖ ≤ Real.exp r * 2 ^ ns * (r / 2 ^ ns) ^ (nt + 1) / (nt + 1)! := by
    rw [matrixExp_eq, exp_split M ns]
    exact h
  exact (norm_rows hb0).1 h2 i

end Norm

/-! ### Drift matrices that damp -/

section L2

open scoped Matrix.Norms.L2Operator

/-- A drift matrix whose symmetric part is not negative takes no vector to a longer one. -/
theorem drift_contracts [NeZero n] {A : Matrix (Fin n) (Fin n) ℝ} (hA : (A + Aᵀ).PosSemidef) {dt : ℝ} (hd : 0 ≤ dt) :
    ‖(exp (dt • (-A)) : Matrix (Fin n) (Fin n) ℝ)‖ ≤ 1 := by
  have h := Verif.Thermo.gle_stable (C := 1) PosSemidef.one (A := A) (by simpa using hA) hd
  set T := (exp (dt • (-A)) : Matrix (Fin n) (Fin n) ℝ) with hT
  rw [← l2_opNorm_conjTranspose, conjTranspose_eq_transpose_of_trivial, ← l2_opNorm_toEuclideanCLM]
  refine ContinuousLinearMap.opNorm_le_bound _ zero_le_one fun v => ?_
  rw [one_mul]
  refine abs_le_of_sq_le_sq' ?_ (norm_nonneg _) |>.2
  rw [EuclideanSpace.real_norm_sq_eq, EuclideanSpace.real_norm_sq_eq]
  have h1 := h.dotProduct_mulVec_nonneg v.ofLp
  rw [star_trivial, Matrix.mul_one, sub_mulVec, one_mulVec, dotProduct_sub, ← mulVec_mulVec, dotProduct_mulVec v.ofLp T,
    ← mulVec_transpose] at h1
  simp only [ofLp_toEuclideanCLM, sq]
  simp only [dotProduct] at h1
  linarith

/-- The error for a drift matrix that damps: it does not grow with the exponential of the matrix. -/
theorem drift_error [NeZero n] {A : Matrix (Fin n) (Fin n) ℝ} (hA : (A + Aᵀ).PosSemidef) {dt : ℝ} (hd : 0 ≤ dt) {r : ℝ}
    (hr : ∀ v, ‖toEuclideanCLM (𝕜 := ℝ) (dt • A) v‖ ≤ r * ‖v‖) (nt ns : ℕ) (v : EuclideanSpace ℝ (Fin n)) :
    ‖toEuclideanCLM (𝕜 := ℝ) (matrixExp (-dt • A) nt ns) v - toEuclideanCLM (𝕜 := ℝ) (exp (-dt • A)) v‖
      ≤ 2 ^ ns * (1 + (r / 2 ^ ns) ^ (nt + 1) / (nt + 1)! * Real.exp (r / 2 ^ ns)) ^ (2 ^ ns - 1)
        * ((r / 2 ^ ns) ^ (nt + 1) / (nt + 1)! * Real.exp (r / 2 ^ ns)) * ‖v‖ := by
  have hr0 : 0 ≤ r := by
    have h1 := hr (EuclideanSpace.single 0 1)
    have h2 := le_trans (norm_nonneg _) h1
    simpa using h2
  have hn : NormOneClass (Matrix (Fin n) (Fin n) ℝ) := ⟨by
    rw [← l2_opNorm_toEuclideanCLM, map_one]
    haveI : Nontrivial (EuclideanSpace ℝ (Fin n)) := ⟨⟨EuclideanSpace.single 0 1, 0, fun h => by simpa using h⟩⟩
    exact norm_one⟩
  have hAn : ‖dt • A‖ ≤ r := by
    rw [← l2_opNorm_toEuclideanCLM]
    exact ContinuousLinearMap.opNorm_le_bound _ hr0 hr
  set x : Matrix (Fin n) (Fin n) ℝ := ((2 : ℝ) ^ ns)⁻¹ • (-dt • A) with hx
  have hxn : ‖x‖ ≤ r / 2 ^ ns := by
    rw [hx, norm_smul, Real.norm_of_nonneg (by positivity), div_eq_inv_mul, neg_smul, norm_neg]
    exact mul_le_mul_of_nonneg_left hAn (by positivity)
  have hpos : (0 : ℝ) ≤ r / 2 ^ ns := by positivity
  have hexp : Real.exp ‖x‖ ≤ Real.exp (r / 2 ^ ns) := Real.exp_le_exp.2 hxn
  set δ := (r / 2 ^ ns) ^ (nt + 1) / (nt + 1)! * Real.exp (r / 2 ^ ns) with hδ
  have hδ0 : 0 ≤ δ := by positivity
  have hd1 : ‖part (nt + 1) x - exp x‖ ≤ δ := by
    rw [norm_sub_rev]
    refine le_trans (exp_tail x _ (Nat.succ_pos _)) (mul_le_mul ?_ hexp (Real.exp_pos _).le (by positivity))
    exact div_le_div_of_nonneg_right (pow_le_pow_left₀ (norm_nonneg _) hxn _) (by positivity)
  have hb1 : ‖exp x‖ ≤ 1 := by
    have e : x = (((2 : ℝ) ^ ns)⁻¹ * dt) • (-A) := by
      rw [hx, smul_smul, smul_neg, ← neg_smul]
      congr 1
      ring
    rw [e]
    exact drift_contracts hA (by positivity)
  have hb : ‖exp x‖ ≤ 1 + δ := by linarith
  have ha : ‖part (nt + 1) x‖ ≤ 1 + δ := by
    have := norm_add_le (part (nt + 1) x - exp x) (exp x)
    rw [sub_add_cancel] at this
    linarith
  have h := pow_diff (by positivity) ha hb hd1 (2 ^ ns)
  have h2 : ‖matrixExp (-dt • A) nt ns - exp (-dt • A)‖ ≤ 2 ^ ns * (1 + δ) ^ (2 ^ ns - 1) * δ := by
    rw [matrixExp_eq, exp_split (-dt • A) ns]
    push_cast at h
    exact h
  rw [← _root_.sub_apply, ← map_sub]
  refine le_trans (ContinuousLinearMap.le_opNorm _ v) (mul_le_mul_of_nonneg_right ?_ (norm_nonneg _))
  rw [l2_opNorm_toEuclideanCLM]
  exact h2

/-- **With the numbers of terms and squarings of the code**: every drift matrix that damps and is not greater than 1024
over a step has an exponential that is right to sixteen digits. -/
theorem drift_accurate [NeZero n] {A : Matrix (Fin n) (Fin n) ℝ} (hA : (A + Aᵀ).PosSemidef) {dt : ℝ} (hd : 0 ≤ dt)
    (hr : ∀ v, ‖toEuclideanCLM (𝕜 := ℝ) (dt • A) v‖ ≤ 1024 * ‖v‖) (v : EuclideanSpace ℝ (Fin n)) :
    ‖toEuclideanCLM (𝕜 := ℝ) (matrixExp (-dt • A) 20 10) v - toEuclideanCLM (𝕜 := ℝ) (exp (-dt • A)) v‖
      ≤ 1 / 10 ^ 16 * ‖v‖ := by
  refine le_trans (drift_error hA hd hr 20 10 v) (mul_le_mul_of_nonneg_right ?_ (norm_nonneg _))
  have h21 : ((20 + 1)! : ℝ) = 51090942171709440000 := by norm_num [Nat.factorial]
  have e1 : ((1024 : ℝ) / 2 ^ 10) = 1 := by norm_num
  rw [e1, one_pow, h21]
  have he := Real.exp_one_lt_d9
  set δ : ℝ := 1 / 51090942171709440000 * Real.exp 1 with hδ
  have hδ0 : 0 ≤ δ := by positivity
  have hδ1 : δ ≤ 6 / 10 ^ 20 := by
    rw [hδ]
    have : (1 : ℝ) / 51090942171709440000 * Real.exp 1 ≤ 1 / 51090942171709440000 * 2.7182818286 :=
      mul_le_mul_of_nonneg_left he.le (by norm_num)
    refine le_trans this (by norm_num)
  have hp : (1 + δ) ^ (2 ^ 10 - 1) ≤ 3 / 2 := by
    have h1 : (1 + δ) ^ (2 ^ 10 - 1) ≤ (1 + 6 / 10 ^ 20) ^ (2 ^ 10 - 1) :=
      pow_le_pow_left₀ (by positivity) (by linarith) _
    have h2 : ((1 : ℝ) + 6 / 10 ^ 20) ^ (2 ^ 10 - 1) ≤ Real.exp (6 / 10 ^ 20) ^ (2 ^ 10 - 1) := by
      refine pow_le_pow_left₀ (by positivity) ?_ _
      rw [add_comm]
      exact Real.add_one_le_exp _
    have h3 : Real.exp (6 / 10 ^ 20) ^ (2 ^ 10 - 1) ≤ 3 / 2 := by
      rw [← Real.exp_nat_mul]
      have := Real.exp_bound_div_one_sub_of_interval (x := ((2 ^ 10 - 1 : ℕ) : ℝ) * (6 / 10 ^ 20)) (by positivity) (by norm_num)
      refine le_trans this ?_
      norm_num
    exact h1.trans (h2.trans h3)
  calc 2 ^ 10 * (1 + δ) ^ (2 ^ 10 - 1) * δ ≤ 2 ^ 10 * (3 / 2) * (6 / 10 ^ 20) :=
        mul_le_mul (mul_le_mul_of_nonneg_left hp (by norm_num)) hδ1 hδ0 (by norm_num)
    _ ≤ 1 / 10 ^ 16 := by norm_num

/-- A drift matrix with an oscillation. -/
example : ((!![1, 2; -2, 3] : Matrix (Fin 2) (Fin 2) ℝ) + (!![1, 2; -2, 3])ᵀ).PosSemidef := by
  refine PosSemidef.of_dotProduct_mulVec_nonneg ?_ fun x => ?_
  · ext i j
    fin_cases i <;> fin_cases j <;> simp
  · simp [mulVec, dotProduct, Fin.sum_univ_two]
    nlinarith [sq_nonneg (x 0), sq_nonneg (x 1)]

end L2

/-! ### Drift matrices that are too large -/

theorem exp_scalar (c : ℝ) : (exp (c • (1 : Matrix (Fin n) (Fin n) ℝ)) : Matrix (Fin n) (Fin n) ℝ) = Real.exp c • 1 := by
  have : c • (1 : Matrix (Fin n) (Fin n) ℝ) = diagonal fun _ => c := by
    ext i j
    by_cases h : i = j <;> simp [h]
  rw [this, Matrix.exp_diagonal]
  ext i j
  by_cases h : i = j
  · subst h
    simp [Real.exp_eq_exp_ℝ, Pi.coe_exp]
  · simp [h]

theorem matrixExp_scalar (c : ℝ) (nt ns : ℕ) :
    matrixExp (c • (1 : Matrix (Fin n) (Fin n) ℝ)) nt ns = (∑ i ∈ range (nt + 1), (c / 2 ^ ns) ^ i / i !) ^ 2 ^ ns • 1 := by
  rw [matrixExp_eq]
  have : ∀ i : ℕ, (i ! : ℝ)⁻¹ • (((2 : ℝ) ^ ns)⁻¹ • c • (1 : Matrix (Fin n) (Fin n) ℝ)) ^ i
      = ((c / 2 ^ ns) ^ i / i !) • (1 : Matrix (Fin n) (Fin n) ℝ) := by
    intro i
    rw [smul_smul, smul_pow, one_pow, smul_smul]
    congr 1
    rw [div_eq_inv_mul, div_eq_inv_mul]
  simp only [this]
  rw [← Finset.sum_smul, smul_pow, one_pow]

/-- **A strong friction with a large time step**: the factor that damps the momenta is greater than one. -/
theorem large_drift_wrong : ∃ c : ℝ, 0 < c ∧ ∀ (n : ℕ) (i : Fin n),
    1 < matrixExp (-c • (1 : Matrix (Fin n) (Fin n) ℝ)) 20 10 i i ∧
      (exp (-c • (1 : Matrix (Fin n) (Fin n) ℝ)) : Matrix (Fin n) (Fin n) ℝ) i i < 1 := by
  refine ⟨30 * 1024, by norm_num, fun n i => ⟨?_, ?_⟩⟩
  · rw [matrixExp_scalar]
    simp only [Matrix.smul_apply, one_apply_eq, smul_eq_mul, mul_one]
    refine one_lt_pow₀ ?_ (by norm_num)
    simp only [sum_range_succ, sum_range_zero, Nat.factorial]
    norm_num
  · rw [exp_scalar]
    simp only [Matrix.smul_apply, one_apply_eq, smul_eq_mul, mul_one]
    rw [Real.exp_lt_one_iff]
    norm_num

end Verif.MatrixExp
