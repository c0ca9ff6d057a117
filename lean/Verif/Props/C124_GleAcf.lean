/-
C124: Removing the effect of a thermostat from a vibrational spectrum.
-/
import Verif.Tools.GleAcf
import Mathlib.Analysis.Normed.Algebra.MatrixExponential
import Mathlib.Analysis.SpecialFunctions.ImproperIntegrals
import Mathlib.Analysis.SpecialFunctions.Exponential
import Mathlib.LinearAlgebra.Matrix.Notation
import Mathlib.Tactic.LinearCombination
import Mathlib.Tactic.FieldSimp

namespace Verif.GleAcf

open Matrix MeasureTheory Set

variable {m : Type} [Fintype m] [DecidableEq m]

/-! ### Specification -/

/-- `C` is the stationary covariance of the linear stochastic process with drift matrix `A` and
squared diffusion matrix `D`. -/
structure IsCov {ι : Type} [Fintype ι] (A D C : Matrix ι ι ℝ) : Prop where
  symm : Cᵀ = C
  stat : A * C + C * Aᵀ = D

/-- The autocorrelation function of coordinate `i` of the stationary process with drift matrix `A`
and covariance `C`. -/
noncomputable def corr {ι : Type} [Fintype ι] [DecidableEq ι] (A C : Matrix ι ι ℝ) (i : ι) (t : ℝ) : ℝ :=
  (NormedSpace.exp (-t • A) * C) i i

/-! ### The covariance -/

section Lyapunov
variable {ι : Type} [Fintype ι] [DecidableEq ι]

theorem IsEig.inv' {M : Matrix ι ι ℝ} {w O Oinv} (h : IsEig M w O Oinv) : Oinv * O = 1 :=
  mul_eq_one_comm.1 h.inv

theorem IsEig.eq {M : Matrix ι ι ℝ} {w O Oinv} (h : IsEig M w O Oinv) :
    M.map Complex.ofReal = O * diagonal w * Oinv := by
  rw [← h.vec, Matrix.mul_assoc, h.inv, Matrix.mul_one]

theorem map_mul_re (M : Matrix ι ι ℝ) (X : Matrix ι ι ℂ) :
    (M.map Complex.ofReal * X).map Complex.re = M * X.map Complex.re := by
  ext i j
  simp [Matrix.mul_apply]

theorem map_mul_re' (M : Matrix ι ι ℝ) (X : Matrix ι ι ℂ) :
    (X * (M.map Complex.ofReal)ᵀ).map Complex.re = X.map Complex.re * Mᵀ := by
  ext i j
  simp [Matrix.mul_apply]

/-- The matrix that is computed from the eigenvalues solves the equation of the covariance. -/
theorem lyapunov_solves {M : Matrix ι ι ℝ} {a O Oinv} (h : IsEig M a O Oinv)
    (hne : ∀ i j, a i + a j ≠ 0) (D : Matrix ι ι ℝ) :
    M * lyapunov a O Oinv D + lyapunov a O Oinv D * Mᵀ = D := by
  set W : Matrix ι ι ℂ := Matrix.of fun i j => (Oinv * D.map Complex.ofReal * Oinvᵀ) i j / (a i + a j)
    with hW
  have hl : lyapunov a O Oinv D = (O * (W * Oᵀ)).map Complex.re := rfl
  rw [hl, ← map_mul_re, ← map_mul_re', ← Matrix.map_add _ Complex.add_re]
  have e1 : M.map Complex.ofReal * (O * (W * Oᵀ)) = O * (diagonal a * W) * Oᵀ := by
    rw [← Matrix.mul_assoc, h.vec]; simp only [Matrix.mul_assoc]
  have e2 : O * (W * Oᵀ) * (M.map Complex.ofReal)ᵀ = O * (W * diagonal a) * Oᵀ := by
    have : Oᵀ * (M.map Complex.ofReal)ᵀ = diagonal a * Oᵀ := by
      rw [← transpose_mul, h.vec, transpose_mul, diagonal_transpose]
    rw [Matrix.mul_assoc, Matrix.mul_assoc, this]; simp only [Matrix.mul_assoc]
  have e3 : diagonal a * W + W * diagonal a = Oinv * D.map Complex.ofReal * Oinvᵀ := by
    ext i j
    rw [Matrix.add_apply, diagonal_mul, mul_diagonal]
    simp only [hW, Matrix.of_apply]
    have := hne i j
    generalize (Oinv * D.map Complex.ofReal * Oinvᵀ) i j = x
    field_simp
  have e4 : M.map Complex.ofReal * (O * (W * Oᵀ)) + O * (W * Oᵀ) * (M.map Complex.ofReal)ᵀ
      = D.map Complex.ofReal := by
    rw [e1, e2, ← Matrix.add_mul, ← Matrix.mul_add, e3]
    have i1 := h.inv
    have i2 : Oinvᵀ * Oᵀ = 1 := by rw [← transpose_mul, i1, transpose_one]
    calc O * (Oinv * D.map Complex.ofReal * Oinvᵀ) * Oᵀ
        = (O * Oinv) * D.map Complex.ofReal * (Oinvᵀ * Oᵀ) := by simp only [Matrix.mul_assoc]
      _ = _ := by rw [i1, i2, Matrix.one_mul, Matrix.mul_one]
  rw [e4]
  ext i j
  simp

/-- There is only one solution. -/
theorem lyapunov_unique {M : Matrix ι ι ℝ} {a O Oinv} (h : IsEig M a O Oinv)
    (hne : ∀ i j, a i + a j ≠ 0) {X Y : Matrix ι ι ℝ} (hXY : M * X + X * Mᵀ = M * Y + Y * Mᵀ) :
    X = Y := by
  set Z := (X - Y).map Complex.ofReal with hZ
  have h0 : M.map Complex.ofReal * Z + Z * (M.map Complex.ofReal)ᵀ = 0 := by
    have hr : M * (X - Y) + (X - Y) * Mᵀ = 0 := by
      rw [Matrix.mul_sub, Matrix.sub_mul]
      have := sub_eq_zero.2 hXY
      rw [← this]; abel
    have : (M * (X - Y) + (X - Y) * Mᵀ).map Complex.ofReal = 0 := by rw [hr]; ext; simp
    rw [← this]
    ext i j
    simp [hZ, Matrix.mul_apply]
  have e1 : diagonal a * (Oinv * Z * Oinvᵀ) + (Oinv * Z * Oinvᵀ) * diagonal a = 0 := by
    have v : Oinv * M.map Complex.ofReal = diagonal a * Oinv := by
      rw [h.eq, ← Matrix.mul_assoc, ← Matrix.mul_assoc, h.inv', Matrix.one_mul]
    have v' : (M.map Complex.ofReal)ᵀ * Oinvᵀ = Oinvᵀ * diagonal a := by
      rw [← transpose_mul, v, transpose_mul, diagonal_transpose]
    have : Oinv * (M.map Complex.ofReal * Z + Z * (M.map Complex.ofReal)ᵀ) * Oinvᵀ = 0 := by
      rw [h0, Matrix.mul_zero, Matrix.zero_mul]
    rw [← this, Matrix.mul_add, Matrix.add_mul]
    congr 1
    · rw [← Matrix.mul_assoc Oinv, v]; simp only [Matrix.mul_assoc]
    · simp only [Matrix.mul_assoc]; rw [v']
  have e2 : Oinv * Z * Oinvᵀ = 0 := by
    ext i j
    have := congrFun (congrFun e1 i) j
    rw [Matrix.add_apply, diagonal_mul, mul_diagonal, Matrix.zero_apply] at this
    have h2 : (a i + a j) * (Oinv * Z * Oinvᵀ) i j = 0 := by linear_combination this
    exact (mul_eq_zero.1 h2).resolve_left (hne i j)
  have e3 : Z = 0 := by
    have i2 : Oinvᵀ * Oᵀ = 1 := by rw [← transpose_mul, h.inv, transpose_one]
    calc Z = (O * Oinv) * Z * (Oinvᵀ * Oᵀ) := by rw [h.inv, i2, Matrix.one_mul, Matrix.mul_one]
      _ = O * (Oinv * Z * Oinvᵀ) * Oᵀ := by simp only [Matrix.mul_assoc]
      _ = 0 := by rw [e2, Matrix.mul_zero, Matrix.zero_mul]
  ext i j
  have := congrFun (congrFun e3 i) j
  simp only [hZ, Matrix.map_apply, Matrix.sub_apply, Matrix.zero_apply, Complex.ofReal_eq_zero] at this
  linarith

end Lyapunov

/-- The scaling of coordinate `q`. -/
def dq (x : ℝ) : Unit ⊕ m → ℝ
  | .inl _ => x
  | .inr _ => 1

theorem scaleA_eq (ω0 : ℝ) (A : Matrix (Unit ⊕ m) (Unit ⊕ m) ℝ) :
    scaleA ω0 A = diagonal (dq ω0⁻¹) * A * diagonal (dq ω0) := by
  ext i j
  rw [mul_diagonal, diagonal_mul]
  rcases i with i | i <;> rcases j with j | j <;>
    simp only [scaleA, Matrix.of_apply, dq] <;> ring

theorem unscaleC_eq (ω0 : ℝ) (C : Matrix (Unit ⊕ m) (Unit ⊕ m) ℝ) :
    unscaleC ω0 C = diagonal (dq ω0⁻¹) * C * diagonal (dq ω0⁻¹) := by
  ext i j
  rw [mul_diagonal, diagonal_mul]
  rcases i with i | i <;> rcases j with j | j <;>
    simp only [unscaleC, Matrix.of_apply, dq] <;> ring

theorem dq_inv {ω0 : ℝ} (h : ω0 ≠ 0) :
    diagonal (dq ω0 : Unit ⊕ m → ℝ) * diagonal (dq ω0⁻¹) = 1 := by
  rw [diagonal_mul_diagonal, ← diagonal_one]
  congr 1
  funext i
  rcases i with i | i <;> simp [dq, h]

theorem scaleD_Dqp (ω0 c : ℝ) (Dp : Matrix m m ℝ) : scaleD ω0 (c • Dqp Dp) = c • Dqp Dp := by
  ext i j
  rcases i with i | i <;> rcases j with j | j <;> simp [scaleD, Dqp]

theorem dq_Dqp (x c : ℝ) (Dp : Matrix m m ℝ) :
    diagonal (dq x) * (c • Dqp Dp) * diagonal (dq x) = c • Dqp Dp := by
  ext i j
  rw [mul_diagonal, diagonal_mul]
  rcases i with i | i <;> rcases j with j | j <;> simp [dq, Dqp]

/-- What `Cqp` returns, compared with the covariance: every factor of `q` has been divided by
`ω0` squared. -/
theorem cqp_eq {ω0 : ℝ} (h0 : ω0 ≠ 0) {A : Matrix (Unit ⊕ m) (Unit ⊕ m) ℝ} {a O Oinv}
    (h : IsEig (scaleA ω0 A) a O Oinv) (hne : ∀ i j, a i + a j ≠ 0) {c : ℝ} {Dp : Matrix m m ℝ}
    {C : Matrix (Unit ⊕ m) (Unit ⊕ m) ℝ} (hC : IsCov A (c • Dqp Dp) C) (i j : Unit ⊕ m) :
    Cqp ω0 a O Oinv (c • Dqp Dp) i j = C i j / (dq ω0 i ^ 2 * dq ω0 j ^ 2) := by
  set S : Matrix (Unit ⊕ m) (Unit ⊕ m) ℝ := diagonal (dq ω0) with hS
  set T : Matrix (Unit ⊕ m) (Unit ⊕ m) ℝ := diagonal (dq ω0⁻¹) with hT
  have hST : S * T = 1 := dq_inv h0
  have hTS : T * S = 1 := mul_eq_one_comm.1 hST
  have key : lyapunov a O Oinv (c • Dqp Dp) = T * C * T := by
    apply lyapunov_unique h hne
    rw [lyapunov_solves h hne, scaleA_eq]
    have t1 : (T * A * S)ᵀ = S * Aᵀ * T := by
      rw [transpose_mul, transpose_mul, hS, hT, diagonal_transpose, diagonal_transpose,
        Matrix.mul_assoc]
    have : T * A * S * (T * C * T) + T * C * T * (T * A * S)ᵀ = T * (A * C + C * Aᵀ) * T := by
      rw [t1, Matrix.mul_add, Matrix.add_mul]
      congr 1
      · calc T * A * S * (T * C * T) = T * A * (S * T) * C * T := by simp only [Matrix.mul_assoc]
          _ = _ := by rw [hST, Matrix.mul_one]; simp only [Matrix.mul_assoc]
      · calc T * C * T * (S * Aᵀ * T) = T * C * (T * S) * Aᵀ * T := by simp only [Matrix.mul_assoc]
          _ = _ := by rw [hTS, Matrix.mul_one]; simp only [Matrix.mul_assoc]
    rw [this, hC.stat, hT, dq_Dqp]
  rw [Cqp, scaleD_Dqp, key, unscaleC_eq, mul_diagonal, diagonal_mul, hT, mul_diagonal, diagonal_mul]
  rcases i with i | i <;> rcases j with j | j <;> simp only [dq] <;> field_simp

/-- The covariances among the momentum and the additional momenta are right. -/
theorem cqp_momenta {ω0 : ℝ} (h0 : ω0 ≠ 0) {A : Matrix (Unit ⊕ m) (Unit ⊕ m) ℝ} {a O Oinv}
    (h : IsEig (scaleA ω0 A) a O Oinv) (hne : ∀ i j, a i + a j ≠ 0) {c : ℝ} {Dp : Matrix m m ℝ}
    {C : Matrix (Unit ⊕ m) (Unit ⊕ m) ℝ} (hC : IsCov A (c • Dqp Dp) C) (i j : m) :
    Cqp ω0 a O Oinv (c • Dqp Dp) (.inr i) (.inr j) = C (.inr i) (.inr j) := by
  rw [cqp_eq h0 h hne hC]; simp [dq]

/-- The variance of the position is wrong by the fourth power of the frequency. -/
theorem cqp_position {ω0 : ℝ} (h0 : ω0 ≠ 0) {A : Matrix (Unit ⊕ m) (Unit ⊕ m) ℝ} {a O Oinv}
    (h : IsEig (scaleA ω0 A) a O Oinv) (hne : ∀ i j, a i + a j ≠ 0) {c : ℝ} {Dp : Matrix m m ℝ}
    {C : Matrix (Unit ⊕ m) (Unit ⊕ m) ℝ} (hC : IsCov A (c • Dqp Dp) C) :
    Cqp ω0 a O Oinv (c • Dqp Dp) (.inl ()) (.inl ()) = C (.inl ()) (.inl ()) / ω0 ^ 4 := by
  rw [cqp_eq h0 h hne hC]; simp only [dq]; ring_nf

/-! ### The kernel -/

section Kernel
variable {ι : Type} [Fintype ι] [DecidableEq ι]

/-- Functions of a matrix do not depend on the choice of eigenvectors. -/
theorem func_unique {M U Uinv O Oinv : Matrix ι ι ℂ} {b c : ι → ℂ} (hU : M * U = U * diagonal b)
    (hUi : U * Uinv = 1) (hO : M * O = O * diagonal c) (hOi : O * Oinv = 1) (f : ℂ → ℂ) :
    U * diagonal (f ∘ b) * Uinv = O * diagonal (f ∘ c) * Oinv := by
  have hUi' : Uinv * U = 1 := mul_eq_one_comm.1 hUi
  have hOi' : Oinv * O = 1 := mul_eq_one_comm.1 hOi
  have v : Uinv * M = diagonal b * Uinv := by
    have : M = U * diagonal b * Uinv := by rw [← hU, Matrix.mul_assoc, hUi, Matrix.mul_one]
    rw [this, ← Matrix.mul_assoc, ← Matrix.mul_assoc, hUi', Matrix.one_mul]
  have t : diagonal b * (Uinv * O) = (Uinv * O) * diagonal c := by
    rw [← Matrix.mul_assoc, ← v, Matrix.mul_assoc, hO, Matrix.mul_assoc]
  have t2 : diagonal (f ∘ b) * (Uinv * O) = (Uinv * O) * diagonal (f ∘ c) := by
    ext i j
    have := congrFun (congrFun t i) j
    rw [diagonal_mul, mul_diagonal] at this ⊢
    by_cases h : (Uinv * O) i j = 0
    · rw [h]; simp
    · have : b i = c j := by
        have h2 : (b i - c j) * (Uinv * O) i j = 0 := by linear_combination this
        exact sub_eq_zero.1 ((mul_eq_zero.1 h2).resolve_right h)
      simp only [Function.comp, this]; ring
  calc U * diagonal (f ∘ b) * Uinv = U * (diagonal (f ∘ b) * (Uinv * O)) * Oinv := by
        simp only [Matrix.mul_assoc]; rw [hOi, Matrix.mul_one]
    _ = U * Uinv * O * diagonal (f ∘ c) * Oinv := by rw [t2]; simp only [Matrix.mul_assoc]
    _ = _ := by rw [hUi, Matrix.one_mul]

/-- The cosine transform of a decaying exponential. -/
theorem exp_cos_integral {b : ℂ} (hb : 0 < b.re) (ω : ℝ) :
    IntegrableOn (fun t : ℝ => (Real.cos (ω * t) : ℂ) * Complex.exp (-(b * t))) (Ioi 0)
      ∧ ∫ t in Ioi (0 : ℝ), (Real.cos (ω * t) : ℂ) * Complex.exp (-(b * t)) = b / (b ^ 2 + ω ^ 2) := by
  have h1 : (-b + ω * Complex.I).re < 0 := by simpa using hb
  have h2 : (-b - ω * Complex.I).re < 0 := by simpa using hb
  have e : (fun t : ℝ => (Real.cos (ω * t) : ℂ) * Complex.exp (-(b * t)))
      = fun t : ℝ => (1 / 2 : ℂ) * Complex.exp ((-b + ω * Complex.I) * t)
        + (1 / 2 : ℂ) * Complex.exp ((-b - ω * Complex.I) * t) := by
    funext t
    rw [Complex.ofReal_cos, Complex.cos]
    have e1 : (-b + ω * Complex.I) * t = ((ω * t : ℝ) : ℂ) * Complex.I + -(b * t) := by
      push_cast; ring
    have e2 : (-b - ω * Complex.I) * t = -((ω * t : ℝ) : ℂ) * Complex.I + -(b * t) := by
      push_cast; ring
    rw [e1, e2, Complex.exp_add, Complex.exp_add]; ring
  have i1 := (integrableOn_exp_mul_complex_Ioi h1 0).const_mul (1 / 2 : ℂ)
  have i2 := (integrableOn_exp_mul_complex_Ioi h2 0).const_mul (1 / 2 : ℂ)
  rw [e]
  refine ⟨i1.add i2, ?_⟩
  rw [integral_add i1 i2, integral_const_mul, integral_const_mul, integral_exp_mul_complex_Ioi h1,
    integral_exp_mul_complex_Ioi h2]
  have n1 : -b + ω * Complex.I ≠ 0 := fun h => by rw [h] at h1; simp at h1
  have n2 : -b - ω * Complex.I ≠ 0 := fun h => by rw [h] at h2; simp at h2
  have n3 : b ^ 2 + (ω : ℂ) ^ 2 ≠ 0 := by
    have : b ^ 2 + (ω : ℂ) ^ 2 = (-b + ω * Complex.I) * (-b - ω * Complex.I) := by
      linear_combination ((ω : ℂ) ^ 2) * Complex.I_sq
    rw [this]; exact mul_ne_zero n1 n2
  simp only [Complex.ofReal_zero, mul_zero, Complex.exp_zero]
  field_simp
  linear_combination (2 * b * (ω : ℂ) ^ 2) * Complex.I_sq

/-- The exponential of a real matrix from its eigenvectors. -/
theorem exp_eig {M : Matrix ι ι ℝ} {b U Uinv} (h : IsEig M b U Uinv) (t : ℝ) :
    (NormedSpace.exp (t • M)).map Complex.ofReal
      = U * diagonal (fun k => Complex.exp (t * b k)) * Uinv := by
  have e1 : (NormedSpace.exp (t • M)).map Complex.ofReal
      = NormedSpace.exp ((t • M).map Complex.ofReal) := by
    open scoped Norms.Operator in
    exact NormedSpace.map_exp (Complex.ofRealHom.mapMatrix (m := ι))
      (by
        refine continuous_matrix fun i j => ?_
        exact Complex.continuous_ofReal.comp ((continuous_id.matrix_elem i j))) (t • M)
  rw [e1]
  have e2 : (t • M).map Complex.ofReal = U * diagonal (fun k => (t : ℂ) * b k) * Uinv := by
    have : (t • M).map Complex.ofReal = (t : ℂ) • M.map Complex.ofReal := by
      ext i j; simp
    rw [this, h.eq]
    have d : diagonal (fun k => (t : ℂ) * b k) = (t : ℂ) • diagonal b := by
      rw [← diagonal_smul]; rfl
    rw [d, Matrix.mul_smul, Matrix.smul_mul]
  have hi : Uinv = U⁻¹ := (inv_eq_right_inv h.inv).symm
  have hu : IsUnit U := by
    rw [Matrix.isUnit_iff_isUnit_det]
    exact isUnit_det_of_right_inverse h.inv
  rw [e2, hi, exp_conj U _ hu, exp_diagonal]
  congr 3
  funext k
  rw [Pi.coe_exp, Complex.exp_eq_exp_ℂ]

/-- The cosine transform of the autocorrelation function, from the eigenvectors. -/
theorem corr_transform {M : Matrix ι ι ℝ} {b U Uinv} (h : IsEig M b U Uinv) (hb : ∀ k, 0 < (b k).re)
    (C : Matrix ι ι ℝ) (i : ι) (ω : ℝ) :
    ((∫ t in Ioi (0 : ℝ), Real.cos (ω * t) * corr M C i t : ℝ) : ℂ)
      = ∑ k, U i k * (b k / (b k ^ 2 + ω ^ 2)) * (Uinv * C.map Complex.ofReal) k i := by
  have e : ∀ t : ℝ, ((Real.cos (ω * t) * corr M C i t : ℝ) : ℂ)
      = ∑ k, U i k * (Uinv * C.map Complex.ofReal) k i
          * ((Real.cos (ω * t) : ℂ) * Complex.exp (-(b k * t))) := by
    intro t
    have hc : ((corr M C i t : ℝ) : ℂ)
        = ((NormedSpace.exp (-t • M)).map Complex.ofReal * C.map Complex.ofReal) i i := by
      simp [corr, Matrix.mul_apply]
    rw [Complex.ofReal_mul, hc, exp_eig h, Matrix.mul_assoc, Matrix.mul_assoc, Matrix.mul_apply,
      Finset.mul_sum]
    refine Finset.sum_congr rfl fun k _ => ?_
    rw [diagonal_mul]
    have : ((-t : ℝ) : ℂ) * b k = -(b k * t) := by push_cast; ring
    rw [this]; ring
  have io := integral_ofReal (𝕜 := ℂ) (μ := volume.restrict (Ioi (0 : ℝ)))
    (f := fun t => Real.cos (ω * t) * corr M C i t)
  simp only [RCLike.ofReal_eq_complex_ofReal] at io
  rw [← io]
  simp_rw [e]
  rw [integral_finsetSum _ fun k _ => (exp_cos_integral (hb k) ω).1.const_mul _]
  refine Finset.sum_congr rfl fun k _ => ?_
  rw [integral_const_mul, (exp_cos_integral (hb k) ω).2]; ring

end Kernel

/-- An element of the kernel is the cosine transform of the autocorrelation function of the momentum,
for the drift matrix `ω0 • B` and the covariance that are used. -/
theorem element_transform (p : m) (dw : ℝ) {ω0 : ℝ} (h0 : 0 < ω0) (ω : ℝ)
    {B : Matrix (Unit ⊕ m) (Unit ⊕ m) ℝ} {b U Uinv} (hB : IsEig B b U Uinv)
    (hb : ∀ k, 0 < (b k).re) {w2 O Oinv} (h2 : IsEig (B * B) w2 O Oinv)
    (C : Matrix (Unit ⊕ m) (Unit ⊕ m) ℝ) :
    element p dw ω0 ω C w2 O Oinv
      = 2 * dw / Real.pi * ∫ t in Ioi (0 : ℝ), Real.cos (ω * t) * corr (ω0 • B) C (.inr p) t := by
  have h0' : (ω0 : ℂ) ≠ 0 := by exact_mod_cast h0.ne'
  have hA : IsEig (ω0 • B) (fun k => ω0 * b k) U Uinv := by
    refine ⟨?_, hB.inv⟩
    have e1 : (ω0 • B).map Complex.ofReal = (ω0 : ℂ) • B.map Complex.ofReal := by ext i j; simp
    have e2 : diagonal (fun k => (ω0 : ℂ) * b k) = (ω0 : ℂ) • diagonal b := by
      rw [← diagonal_smul]; rfl
    rw [e1, e2, Matrix.smul_mul, hB.vec, Matrix.mul_smul]
  have hb' : ∀ k, 0 < ((ω0 : ℂ) * b k).re := fun k => by
    rw [Complex.re_ofReal_mul]; exact mul_pos h0 (hb k)
  have tr := corr_transform hA hb' C (.inr p) ω
  set f : ℂ → ℂ := fun z => z ^ (2⁻¹ : ℂ) / (z + ω ^ 2 / ω0 ^ 2) with hf
  have sq : (B * B).map Complex.ofReal * U = U * diagonal (fun k => b k ^ 2) := by
    have e1 : (B * B).map Complex.ofReal = B.map Complex.ofReal * B.map Complex.ofReal := by
      ext i j; simp [Matrix.mul_apply]
    rw [e1, Matrix.mul_assoc, hB.vec, ← Matrix.mul_assoc, hB.vec, Matrix.mul_assoc,
      diagonal_mul_diagonal]
    congr 2; funext k; ring
  have fu := func_unique sq hB.inv h2.vec h2.inv f
  have es : ∑ k, O (.inr p) k * w2 k ^ (2⁻¹ : ℂ) / ω0
      * ((Oinv * C.map Complex.ofReal) k (.inr p) / (w2 k + ω ^ 2 / ω0 ^ 2))
      = (ω0 : ℂ)⁻¹ * (O * diagonal (f ∘ w2) * Oinv * C.map Complex.ofReal) (.inr p) (.inr p) := by
    rw [Matrix.mul_assoc, Matrix.mul_assoc, Matrix.mul_apply, Finset.mul_sum]
    refine Finset.sum_congr rfl fun k _ => ?_
    rw [diagonal_mul]
    simp only [hf, Function.comp]
    ring
  have eu : (ω0 : ℂ)⁻¹ * (U * diagonal (f ∘ fun k => b k ^ 2) * Uinv * C.map Complex.ofReal)
        (.inr p) (.inr p)
      = ∑ k, U (.inr p) k * (ω0 * b k / ((ω0 * b k) ^ 2 + ω ^ 2))
        * (Uinv * C.map Complex.ofReal) k (.inr p) := by
    rw [Matrix.mul_assoc, Matrix.mul_assoc, Matrix.mul_apply, Finset.mul_sum]
    refine Finset.sum_congr rfl fun k _ => ?_
    rw [diagonal_mul]
    simp only [hf, Function.comp]
    rw [Complex.sq_cpow_two_inv (hb k)]
    have : b k / (b k ^ 2 + (ω : ℂ) ^ 2 / ω0 ^ 2) = ω0 * (ω0 * b k / ((ω0 * b k) ^ 2 + ω ^ 2)) := by
      have d : b k ^ 2 + (ω : ℂ) ^ 2 / ω0 ^ 2 = ((ω0 * b k) ^ 2 + ω ^ 2) / ω0 ^ 2 := by
        field_simp
      rw [d, div_div_eq_mul_div]; ring
    rw [this]
    field_simp
  unfold element
  rw [es, ← fu, eu, ← tr, Complex.ofReal_re]
  ring

omit [DecidableEq m] in
/-- Elements of the kernel depend on the covariances with the momentum only. -/
theorem element_congr (p : m) (dw ω0 ω : ℝ) {C C' : Matrix (Unit ⊕ m) (Unit ⊕ m) ℝ}
    (h : ∀ i, C i (.inr p) = C' i (.inr p)) (w2 O Oinv) :
    element p dw ω0 ω C w2 O Oinv = element p dw ω0 ω C' w2 O Oinv := by
  unfold element
  have : ∀ k, (Oinv * C.map Complex.ofReal) k (.inr p) = (Oinv * C'.map Complex.ofReal) k (.inr p) := by
    intro k
    rw [Matrix.mul_apply, Matrix.mul_apply]
    refine Finset.sum_congr rfl fun i _ => ?_
    rw [Matrix.map_apply, Matrix.map_apply, h i]
  simp only [this]

/-- Position and momentum are not correlated. -/
theorem cov_qp (p : m) {ω0 : ℝ} {Ap Dp : Matrix m m ℝ} {C : Matrix (Unit ⊕ m) (Unit ⊕ m) ℝ}
    (hC : IsCov (Aqp p ω0 Ap) (Dqp Dp) C) : C (.inl ()) (.inr p) = 0 := by
  have h := congrFun (congrFun hC.stat (.inl ())) (.inl ())
  have hs := congrFun (congrFun hC.symm (.inl ())) (.inr p)
  rw [transpose_apply] at hs
  rw [Matrix.add_apply, Matrix.mul_apply, Matrix.mul_apply, Fintype.sum_sum_type,
    Fintype.sum_sum_type] at h
  simp [Aqp, Dqp, transpose_apply] at h
  linarith

/-- The kernel: element `(ω, ω0)` is the cosine transform at `ω` of the autocorrelation function of
the momentum of an oscillator of frequency `ω0` with the thermostat, although the covariance that it
is computed from is not right. -/
theorem kernel_element (p : m) {dw ω0 : ℝ} (h0 : 0 < ω0) (ω : ℝ) {Ap Dp : Matrix m m ℝ}
    (hdw : 2 * dw ≤ Ap p p) {a O1 O1inv} (h1 : IsEig (scaleA ω0 (ω0⁻¹ • Aqp p ω0 Ap)) a O1 O1inv)
    (ha : ∀ k, 0 < (a k).re) {w2 O2 O2inv}
    (h2 : IsEig (raised p dw ω0 (ω0⁻¹ • Aqp p ω0 Ap) * raised p dw ω0 (ω0⁻¹ • Aqp p ω0 Ap)) w2 O2 O2inv)
    {C : Matrix (Unit ⊕ m) (Unit ⊕ m) ℝ} (hC : IsCov (Aqp p ω0 Ap) (Dqp Dp) C) :
    element p dw ω0 ω (Cqp ω0 a O1 O1inv (ω0⁻¹ • Dqp Dp)) w2 O2 O2inv
      = 2 * dw / Real.pi
        * ∫ t in Ioi (0 : ℝ), Real.cos (ω * t) * corr (Aqp p ω0 Ap) C (.inr p) t := by
  set A := Aqp p ω0 Ap with hA
  have hr : raised p dw ω0 (ω0⁻¹ • A) = ω0⁻¹ • A := by
    unfold raised
    rw [if_neg]
    rw [not_lt, Matrix.smul_apply, hA, smul_eq_mul]
    change 2 * dw / ω0 ≤ ω0⁻¹ * Ap p p
    rw [div_eq_inv_mul]
    exact mul_le_mul_of_nonneg_left hdw (inv_nonneg.2 h0.le)
  rw [hr] at h2
  have hC1 : IsCov (ω0⁻¹ • A) (ω0⁻¹ • Dqp Dp) C := by
    refine ⟨hC.symm, ?_⟩
    rw [transpose_smul, Matrix.smul_mul, Matrix.mul_smul, ← smul_add, hC.stat]
  have hne : ∀ i j, a i + a j ≠ 0 := fun i j h => by
    have := congrArg Complex.re h
    rw [Complex.add_re, Complex.zero_re] at this
    linarith [ha i, ha j]
  -- eigenvectors of the matrix that has not been scaled
  set S : Matrix (Unit ⊕ m) (Unit ⊕ m) ℝ := diagonal (dq ω0) with hS
  set T : Matrix (Unit ⊕ m) (Unit ⊕ m) ℝ := diagonal (dq ω0⁻¹) with hT
  have hST : S * T = 1 := dq_inv h0.ne'
  have hSTc : S.map Complex.ofReal * T.map Complex.ofReal = 1 := by
    have := congrArg (fun M : Matrix (Unit ⊕ m) (Unit ⊕ m) ℝ => M.map Complex.ofReal) hST
    rw [Matrix.map_one _ Complex.ofReal_zero Complex.ofReal_one] at this
    rw [← this]; ext i j; simp [Matrix.mul_apply]
  have hB : IsEig (ω0⁻¹ • A) a (S.map Complex.ofReal * O1) (O1inv * T.map Complex.ofReal) := by
    constructor
    · have v := h1.vec
      rw [scaleA_eq] at v
      have e : (T * (ω0⁻¹ • A) * S).map Complex.ofReal
          = T.map Complex.ofReal * (ω0⁻¹ • A).map Complex.ofReal * S.map Complex.ofReal := by
        change (T * (ω0⁻¹ • A) * S).map Complex.ofRealHom = T.map Complex.ofRealHom
          * (ω0⁻¹ • A).map Complex.ofRealHom * S.map Complex.ofRealHom
        rw [← Matrix.map_mul, ← Matrix.map_mul]
      rw [e] at v
      calc (ω0⁻¹ • A).map Complex.ofReal * (S.map Complex.ofReal * O1)
          = (S.map Complex.ofReal * T.map Complex.ofReal) * (ω0⁻¹ • A).map Complex.ofReal
              * S.map Complex.ofReal * O1 := by rw [hSTc, Matrix.one_mul, Matrix.mul_assoc]
        _ = S.map Complex.ofReal * (T.map Complex.ofReal * (ω0⁻¹ • A).map Complex.ofReal
              * S.map Complex.ofReal * O1) := by simp only [Matrix.mul_assoc]
        _ = _ := by rw [v, ← Matrix.mul_assoc]
    · calc S.map Complex.ofReal * O1 * (O1inv * T.map Complex.ofReal)
          = S.map Complex.ofReal * (O1 * O1inv) * T.map Complex.ofReal := by
            simp only [Matrix.mul_assoc]
        _ = 1 := by rw [h1.inv, Matrix.mul_one, hSTc]
  rw [element_congr p dw ω0 ω (C' := C) _ w2 O2 O2inv, element_transform p dw h0 ω hB ha h2 C,
    smul_smul, mul_inv_cancel₀ h0.ne', one_smul]
  intro i
  rw [cqp_eq h0.ne' h1 hne hC1]
  rcases i with ⟨⟩ | i
  · have := cov_qp p hC
    simp only [dq]
    rw [this]; simp
  · simp [dq]

/-! ### A concrete case: Langevin dynamics with friction 5 of an oscillator of frequency 2 -/

/-- The friction. -/
def fric : Matrix Unit Unit ℝ := fun _ _ => 5

/-- Its squared diffusion, for temperature one. -/
def diff : Matrix Unit Unit ℝ := fun _ _ => 10

/-- The covariance: the variance of the position is the inverse of the squared frequency. -/
noncomputable def covL : Matrix (Unit ⊕ Unit) (Unit ⊕ Unit) ℝ :=
  diagonal fun i => match i with | .inl _ => 1 / 4 | .inr _ => 1

/-- A two by two matrix. -/
def two {α : Type} (a b c d : α) : Matrix (Unit ⊕ Unit) (Unit ⊕ Unit) α :=
  Matrix.of fun i j => match i, j with
    | .inl _, .inl _ => a | .inl _, .inr _ => b | .inr _, .inl _ => c | .inr _, .inr _ => d

/-- Two numbers. -/
def pair {α : Type} (a b : α) : Unit ⊕ Unit → α
  | .inl _ => a
  | .inr _ => b

theorem covL_cov : IsCov (Aqp () 2 fric) (Dqp diff) covL := by
  constructor
  · exact diagonal_transpose _
  · ext i j
    rcases i with ⟨⟩ | ⟨⟩ <;> rcases j with ⟨⟩ | ⟨⟩ <;>
      simp [covL, Aqp, Dqp, fric, diff, diagonal_mul, transpose_apply] <;> norm_num

theorem eig_full : IsEig (scaleA 2 (Aqp () 2 fric)) (pair 1 4) (two 1 1 2 8)
    (two (4 / 3) (-1 / 6) (-1 / 3) (1 / 6)) := by
  constructor
  · ext i j
    rcases i with ⟨⟩ | ⟨⟩ <;> rcases j with ⟨⟩ | ⟨⟩ <;>
      simp [Matrix.mul_apply, scaleA, Aqp, fric, two, pair] <;> norm_num
  · ext i j
    rcases i with ⟨⟩ | ⟨⟩ <;> rcases j with ⟨⟩ | ⟨⟩ <;>
      simp [Matrix.mul_apply, two] <;> norm_num

/-- What `Cqp` returns is not the covariance: the variance of the position is 1/64 instead of
1/4. -/
theorem cqp_wrong : ∃ a O Oinv, IsEig (scaleA 2 (Aqp () 2 fric)) a O Oinv
    ∧ IsCov (Aqp () 2 fric) (Dqp diff) covL
    ∧ Cqp 2 a O Oinv (Dqp diff) (.inl ()) (.inl ()) = 1 / 64 ∧ covL (.inl ()) (.inl ()) = 1 / 4 := by
  refine ⟨_, _, _, eig_full, covL_cov, ?_, ?_⟩
  · have hne : ∀ i j, (pair 1 4 : Unit ⊕ Unit → ℂ) i + pair 1 4 j ≠ 0 := by
      intro i j
      rcases i with ⟨⟩ | ⟨⟩ <;> rcases j with ⟨⟩ | ⟨⟩ <;> simp only [pair] <;> norm_num
    have hC : IsCov (Aqp () 2 fric) ((1 : ℝ) • Dqp diff) covL := by rw [one_smul]; exact covL_cov
    have := cqp_position (by norm_num : (2 : ℝ) ≠ 0) eig_full hne hC
    rw [one_smul] at this
    rw [this]
    simp [covL]; norm_num
  · simp [covL]

/-- The hypotheses of the theorem on the kernel are met. -/
example (ω : ℝ) : element () 1 2 ω (Cqp 2 (pair (1 / 2) 2) (two 1 1 2 8)
      (two (4 / 3) (-1 / 6) (-1 / 3) (1 / 6)) ((2 : ℝ)⁻¹ • Dqp diff)) (pair (1 / 4) 4) (two 1 1 1 4)
      (two (4 / 3) (-1 / 3) (-1 / 3) (1 / 3))
    = 2 * 1 / Real.pi * ∫ t in Ioi (0 : ℝ), Real.cos (ω * t) * corr (Aqp () 2 fric) covL (.inr ()) t := by
  have hr : raised () 1 2 ((2 : ℝ)⁻¹ • Aqp () 2 fric) = (2 : ℝ)⁻¹ • Aqp () 2 fric := by
    unfold raised
    rw [if_neg]
    simp [Aqp, fric]; norm_num
  refine kernel_element () (by norm_num) ω (by simp [fric]; norm_num) ?_ ?_ ?_ covL_cov
  · constructor
    · ext i j
      rcases i with ⟨⟩ | ⟨⟩ <;> rcases j with ⟨⟩ | ⟨⟩ <;>
        simp [Matrix.mul_apply, scaleA, Aqp, fric, two, pair] <;> norm_num
    · exact eig_full.inv
  · intro k
    rcases k with ⟨⟩ | ⟨⟩ <;> simp only [pair] <;> norm_num
  · rw [hr]
    constructor
    · ext i j
      rcases i with ⟨⟩ | ⟨⟩ <;> rcases j with ⟨⟩ | ⟨⟩ <;>
        simp [Matrix.mul_apply, Aqp, fric, two, pair] <;> norm_num
    · ext i j
      rcases i with ⟨⟩ | ⟨⟩ <;> rcases j with ⟨⟩ | ⟨⟩ <;>
        simp [Matrix.mul_apply, two] <;> norm_num

/-! ### The frequencies -/

/-- The frequencies that are used are positive, and only the first may differ from what was given. -/
theorem omlist_spec (omega : ℕ → ℝ) (h01 : omega 0 < omega 1) (hpos : ∀ k, 0 < k → 0 < omega k)
    (k : ℕ) : 0 < omlist omega k ∧ (0 < k → omlist omega k = omega k) ∧
      ((omega 1 - omega 0) / 10 ≤ omega 0 → omlist omega 0 = omega 0) := by
  have ha : |omega 1 - omega 0| = omega 1 - omega 0 := abs_of_pos (by linarith)
  refine ⟨?_, fun h => ?_, fun h => ?_⟩
  · unfold omlist
    by_cases hk : k = 0
    · rw [if_pos hk, ha]
      apply lt_max_of_lt_right
      have : 0 < omega 1 - omega 0 := by linarith
      positivity
    · rw [if_neg hk]; exact hpos k (by omega)
  · rw [omlist, if_neg (by omega)]
  · rw [omlist, if_pos rfl, ha, max_eq_left]
    norm_num; linarith

example := omlist_spec (fun k => k) (by norm_num) (fun k h => by exact_mod_cast h) 0

/-! ### Deconvolution -/

section Isra
variable {ι : Type} [Fintype ι]

/-- The distance between the spectrum that was given and the convolution of `f`. -/
noncomputable def misfit (ker : Matrix ι ι ℝ) (y f : ι → ℝ) : ℝ := ∑ i, ((ker *ᵥ f) i - y i) ^ 2

/-- The convolution is the product with the kernel. -/
theorem convolve_eq (ker : Matrix ι ι ℝ) (f : ι → ℝ) : convolve ker f = ker *ᵥ f := by
  rw [convolve, vecMul_transpose]

/-- Positive spectra stay positive. -/
theorem isra_pos [Nonempty ι] {ker : Matrix ι ι ℝ} {y : ι → ℝ} (hk : ∀ i j, 0 < ker i j) (hy : ∀ i, 0 < y i)
    (n : ℕ) (i : ι) : 0 < isra ker y n i := by
  induction n generalizing i with
  | zero => exact hy i
  | succ n ih =>
    change 0 < israStep ker y (isra ker y n) i
    unfold israStep
    have h1 : 0 < (kerᵀ *ᵥ y) i :=
      Finset.sum_pos (fun j _ => mul_pos (hk j i) (hy j)) Finset.univ_nonempty
    have h2 : 0 < ((kerᵀ * ker) *ᵥ isra ker y n) i := by
      refine Finset.sum_pos (fun j _ => mul_pos ?_ (ih j)) Finset.univ_nonempty
      exact Finset.sum_pos (fun k _ => mul_pos (hk k i) (hk k j)) Finset.univ_nonempty
    exact div_pos (mul_pos (ih i) h1) h2

/-- A positive spectrum does not change any more exactly if the misfit cannot be improved to first
order; in particular the true spectrum stays. -/
theorem isra_fixed {ker : Matrix ι ι ℝ} {y f : ι → ℝ} (hf : ∀ i, 0 < f i)
    (hd : ∀ i, ((kerᵀ * ker) *ᵥ f) i ≠ 0) :
    israStep ker y f = f ↔ kerᵀ *ᵥ (ker *ᵥ f) = kerᵀ *ᵥ y := by
  rw [mulVec_mulVec]
  constructor
  · intro h
    funext i
    have := congrFun h i
    unfold israStep at this
    have h1 := hd i
    have h2 := (hf i).ne'
    field_simp at this
    exact this.symm
  · intro h
    funext i
    unfold israStep
    rw [← h]
    have h1 := hd i
    field_simp

theorem isra_true {ker : Matrix ι ι ℝ} {y f : ι → ℝ} (hf : ∀ i, 0 < f i)
    (hd : ∀ i, ((kerᵀ * ker) *ᵥ f) i ≠ 0) (hy : convolve ker f = y) : israStep ker y f = f := by
  rw [isra_fixed hf hd, ← hy, convolve_eq]

/-- A sum over all pairs that is the square of differences. -/
theorem pairs_nonneg (Q : Matrix ι ι ℝ) (hQ : ∀ i j, 0 ≤ Q i j) (hs : ∀ i j, Q i j = Q j i) (f d : ι → ℝ)
    (hf : ∀ i, 0 < f i) :
    ∑ i, ∑ j, Q i j * d i * d j ≤ ∑ i, (Q *ᵥ f) i / f i * d i ^ 2 := by
  have e1 : ∑ i, (Q *ᵥ f) i / f i * d i ^ 2 = ∑ i, ∑ j, Q i j * f j / f i * d i ^ 2 := by
    refine Finset.sum_congr rfl fun i _ => ?_
    simp only [mulVec, dotProduct]
    rw [Finset.sum_div, Finset.sum_mul]
  have e2 : ∑ i, ∑ j, Q i j * f j / f i * d i ^ 2 = ∑ i, ∑ j, Q i j * f i / f j * d j ^ 2 := by
    rw [Finset.sum_comm]
    refine Finset.sum_congr rfl fun i _ => Finset.sum_congr rfl fun j _ => ?_
    rw [hs i j]
  have e3 : 0 ≤ ∑ i, ∑ j, Q i j * f i * f j * (d i / f i - d j / f j) ^ 2 :=
    Finset.sum_nonneg fun i _ => Finset.sum_nonneg fun j _ =>
      mul_nonneg (mul_nonneg (mul_nonneg (hQ i j) (hf i).le) (hf j).le) (sq_nonneg _)
  have e4 : ∑ i, ∑ j, Q i j * f i * f j * (d i / f i - d j / f j) ^ 2
      = ∑ i, ∑ j, Q i j * f j / f i * d i ^ 2 + ∑ i, ∑ j, Q i j * f i / f j * d j ^ 2
        - 2 * ∑ i, ∑ j, Q i j * d i * d j := by
    rw [Finset.mul_sum, ← Finset.sum_add_distrib, ← Finset.sum_sub_distrib]
    refine Finset.sum_congr rfl fun i _ => ?_
    rw [Finset.mul_sum, ← Finset.sum_add_distrib, ← Finset.sum_sub_distrib]
    refine Finset.sum_congr rfl fun j _ => ?_
    have h1 := (hf i).ne'
    have h2 := (hf j).ne'
    field_simp
    ring
  rw [e4, ← e2] at e3
  rw [e1]
  linarith

/-- The misfit after a change `d`. -/
theorem misfit_add (ker : Matrix ι ι ℝ) (y f d : ι → ℝ) :
    misfit ker y (f + d) = misfit ker y f
      + 2 * ∑ i, (((kerᵀ * ker) *ᵥ f) i - (kerᵀ *ᵥ y) i) * d i
      + ∑ i, ∑ j, (kerᵀ * ker) i j * d i * d j := by
  have g : ∀ u v : ι → ℝ, ∑ i, (kerᵀ *ᵥ u) i * v i = ∑ i, u i * (ker *ᵥ v) i := by
    intro u v
    have := dotProduct_mulVec u ker v
    rw [← mulVec_transpose] at this
    simpa [dotProduct] using this.symm
  have e1 : ∑ i, (((kerᵀ * ker) *ᵥ f) i - (kerᵀ *ᵥ y) i) * d i
      = ∑ i, ((ker *ᵥ f) i - y i) * (ker *ᵥ d) i := by
    rw [← mulVec_mulVec]
    have h := g (ker *ᵥ f - y) d
    rw [mulVec_sub] at h
    simpa using h
  have e2 : ∑ i, ∑ j, (kerᵀ * ker) i j * d i * d j = ∑ i, (ker *ᵥ d) i * (ker *ᵥ d) i := by
    rw [← g (ker *ᵥ d) d, mulVec_mulVec]
    refine Finset.sum_congr rfl fun i _ => ?_
    simp only [mulVec, dotProduct, Finset.sum_mul]
    refine Finset.sum_congr rfl fun j _ => ?_
    ring
  rw [e1, e2]
  unfold misfit
  rw [Finset.mul_sum, ← Finset.sum_add_distrib, ← Finset.sum_add_distrib]
  refine Finset.sum_congr rfl fun i _ => ?_
  rw [mulVec_add, Pi.add_apply]
  ring

/-- No step makes the misfit larger. -/
theorem isra_decreases {ker : Matrix ι ι ℝ} {y f : ι → ℝ} (hk : ∀ i j, 0 ≤ ker i j) (hf : ∀ i, 0 < f i)
    (hd : ∀ i, 0 < ((kerᵀ * ker) *ᵥ f) i) : misfit ker y (israStep ker y f) ≤ misfit ker y f := by
  set Q := kerᵀ * ker with hQ
  have q0 : ∀ i j, 0 ≤ Q i j := fun i j =>
    Finset.sum_nonneg fun k _ => mul_nonneg (hk k i) (hk k j)
  have qs : ∀ i j, Q i j = Q j i := by
    intro i j
    have : Qᵀ = Q := by rw [hQ, transpose_mul, transpose_transpose]
    rw [← this, transpose_apply, this]
  set d : ι → ℝ := fun i => f i * ((kerᵀ *ᵥ y) i - (Q *ᵥ f) i) / (Q *ᵥ f) i with hdd
  have es : israStep ker y f = f + d := by
    funext i
    simp only [israStep, Pi.add_apply, hdd, ← hQ]
    have := (hd i).ne'
    field_simp
    ring
  rw [es, misfit_add]
  have := pairs_nonneg Q q0 qs f d hf
  have e : ∑ i, (Q *ᵥ f) i / f i * d i ^ 2 = - ∑ i, ((Q *ᵥ f) i - (kerᵀ *ᵥ y) i) * d i := by
    rw [← Finset.sum_neg_distrib]
    refine Finset.sum_congr rfl fun i _ => ?_
    simp only [hdd]
    have h1 := (hd i).ne'
    have h2 := (hf i).ne'
    field_simp
    ring
  have e0 : ∑ i, ((Q *ᵥ f) i - (kerᵀ *ᵥ y) i) * d i ≤ 0 := by
    have : 0 ≤ ∑ i, (Q *ᵥ f) i / f i * d i ^ 2 :=
      Finset.sum_nonneg fun i _ => mul_nonneg (div_nonneg (hd i).le (hf i).le) (sq_nonneg _)
    linarith
  linarith

/-- Over the whole deconvolution of a positive spectrum the misfit never becomes larger. -/
theorem isra_monotone [Nonempty ι] {ker : Matrix ι ι ℝ} {y : ι → ℝ} (hk : ∀ i j, 0 < ker i j)
    (hy : ∀ i, 0 < y i) : Antitone fun n => misfit ker y (isra ker y n) := by
  refine antitone_nat_of_succ_le fun n => ?_
  refine isra_decreases (fun i j => (hk i j).le) (isra_pos hk hy n) fun i => ?_
  refine Finset.sum_pos (fun j _ => mul_pos ?_ (isra_pos hk hy n j)) Finset.univ_nonempty
  exact Finset.sum_pos (fun k _ => mul_pos (hk k i) (hk k j)) Finset.univ_nonempty

/-- For a symmetric kernel the error that is reported is the misfit. -/
theorem reported_symm {ker : Matrix ι ι ℝ} (hs : kerᵀ = ker) (y f : ι → ℝ) :
    reported ker y f = misfit ker y f := by
  unfold reported misfit
  rw [← mulVec_transpose, hs]

end Isra

example : Antitone fun n => misfit !![2, 1; 1, 3] ![3, 4] (isra !![2, 1; 1, 3] ![3, 4] n) := by
  apply isra_monotone
  · intro i j; fin_cases i <;> fin_cases j <;> norm_num
  · intro i; fin_cases i <;> norm_num

/-- For other kernels it is not: the true spectrum is reported to be wrong, and a wrong one to be
exact. -/
theorem reported_wrong : ∃ (ker : Matrix (Fin 2) (Fin 2) ℝ) (y f g : Fin 2 → ℝ),
    (∀ i j, 0 < ker i j) ∧ (∀ i, 0 < f i) ∧ convolve ker f = y ∧ israStep ker y f = f
      ∧ 0 < reported ker y f ∧ reported ker y g = 0 ∧ convolve ker g ≠ y := by
  have hc : convolve (!![1, 2; 1, 1] : Matrix (Fin 2) (Fin 2) ℝ) ![1, 1] = ![3, 2] := by
    rw [convolve_eq]; funext i; fin_cases i <;> simp [mulVec, dotProduct, Fin.sum_univ_two] <;> norm_num
  have hf : ∀ i, 0 < (![1, 1] : Fin 2 → ℝ) i := by intro i; fin_cases i <;> simp
  refine ⟨!![1, 2; 1, 1], ![3, 2], ![1, 1], ![-1, 4], ?_, hf, hc, isra_true hf ?_ hc, ?_, ?_, ?_⟩
  · intro i j; fin_cases i <;> fin_cases j <;> simp
  · intro i; fin_cases i <;>
      simp [mulVec, dotProduct, Fin.sum_univ_two, Matrix.mul_apply] <;> norm_num
  · simp [reported, vecMul, dotProduct, Fin.sum_univ_two]; norm_num
  · simp [reported, vecMul, dotProduct, Fin.sum_univ_two]; norm_num
  · rw [convolve_eq]
    intro h
    have := congrFun h 0
    simp [mulVec, dotProduct, Fin.sum_univ_two] at this
    norm_num at this

end Verif.GleAcf
