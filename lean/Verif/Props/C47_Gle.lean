import Verif.Props.C47_Canonical
import Verif.Phys.RootHerm
import Mathlib.Analysis.Normed.Algebra.MatrixExponential
import Mathlib.Analysis.SpecialFunctions.Exponential
import Mathlib.Analysis.Calculus.MeanValue

/-!
# C47: the generalised Langevin thermostat keeps its stationary distribution

The target distribution of the extended momenta is Gaussian with covariance `kb C`; for `C = temp`
(the default) the physical momenta are then distributed canonically.
-/

namespace Verif.Thermo

open MeasureTheory ProbabilityTheory Verif.Gauss Matrix Verif.RootHerm
open scoped RealInnerProductSpace NNReal

theorem adjoint_matrix {n : ℕ} (A : Matrix (Fin n) (Fin n) ℝ) :
    ContinuousLinearMap.adjoint (toEuclideanCLM (𝕜 := ℝ) A) = toEuclideanCLM (𝕜 := ℝ) Aᵀ := by
  rw [← conjTranspose_eq_transpose_of_trivial, ← star_eq_conjTranspose, map_star]
  rfl

/-- A linear image of a Gaussian vector plus a linear image of independent standard normal
numbers. -/
theorem gaussian_matrix_charFun {n : ℕ} {C T S : Matrix (Fin n) (Fin n) ℝ} (hC : C.PosSemidef)
    (t : EuclideanSpace ℝ (Fin n)) :
    charFun (((multivariateGaussian 0 C).prod (stdGaussian (EuclideanSpace ℝ (Fin n)))).map
        (fun z => toEuclideanCLM (𝕜 := ℝ) T z.1 + toEuclideanCLM (𝕜 := ℝ) S z.2)) t
      = Complex.exp ((-(t.ofLp ⬝ᵥ (T * C * Tᵀ + S * Sᵀ) *ᵥ t.ofLp) / 2 : ℝ)) := by
  rw [charFun_lin, adjoint_matrix, adjoint_matrix, charFun_multivariateGaussian hC,
    charFun_stdGaussian, ← Complex.exp_add]
  congr 1
  have e1 : ‖toEuclideanCLM (𝕜 := ℝ) Sᵀ t‖ ^ 2 = t.ofLp ⬝ᵥ (S * Sᵀ) *ᵥ t.ofLp := by
    rw [EuclideanSpace.real_norm_sq_eq]
    have : ∀ i, (toEuclideanCLM (𝕜 := ℝ) Sᵀ t).ofLp i ^ 2
        = (Sᵀ *ᵥ t.ofLp) i * (Sᵀ *ᵥ t.ofLp) i := by
      intro i; rw [ofLp_toEuclideanCLM, sq]
    simp only [this]
    change (Sᵀ *ᵥ t.ofLp) ⬝ᵥ (Sᵀ *ᵥ t.ofLp) = _
    rw [← mulVec_mulVec, dotProduct_mulVec t.ofLp, ← mulVec_transpose]
  have e2 : (toEuclideanCLM (𝕜 := ℝ) Tᵀ t).ofLp ⬝ᵥ C *ᵥ (toEuclideanCLM (𝕜 := ℝ) Tᵀ t).ofLp
      = t.ofLp ⬝ᵥ (T * C * Tᵀ) *ᵥ t.ofLp := by
    rw [ofLp_toEuclideanCLM, ← mulVec_mulVec, ← mulVec_mulVec, dotProduct_mulVec t.ofLp,
      ← mulVec_transpose]
  rw [e2, inner_zero_right, ← Complex.ofReal_pow, e1, add_mulVec, dotProduct_add]
  push_cast
  ring

theorem symm_ext {n : ℕ} {M N : Matrix (Fin n) (Fin n) ℝ} (hM : Mᵀ = M) (hN : Nᵀ = N)
    (h : ∀ x : Fin n → ℝ, x ⬝ᵥ M *ᵥ x = x ⬝ᵥ N *ᵥ x) : M = N := by
  have pol : ∀ (A : Matrix (Fin n) (Fin n) ℝ), Aᵀ = A → ∀ x y : Fin n → ℝ,
      (x + y) ⬝ᵥ A *ᵥ (x + y) = x ⬝ᵥ A *ᵥ x + 2 * (x ⬝ᵥ A *ᵥ y) + y ⬝ᵥ A *ᵥ y := by
    intro A hA x y
    have : y ⬝ᵥ A *ᵥ x = x ⬝ᵥ A *ᵥ y := by
      rw [dotProduct_mulVec, ← mulVec_transpose, hA, dotProduct_comm]
    rw [mulVec_add, dotProduct_add, add_dotProduct, add_dotProduct, this]
    ring
  ext i j
  have h1 := h (Pi.single i 1 + Pi.single j 1)
  rw [pol M hM, pol N hN, h, h] at h1
  have h2 : ∀ A : Matrix (Fin n) (Fin n) ℝ, (Pi.single i 1 : Fin n → ℝ) ⬝ᵥ A *ᵥ Pi.single j 1 = A i j := by
    intro A
    simp
  rw [h2, h2] at h1
  linarith

theorem gaussian_matrix_iff {n : ℕ} {C T S : Matrix (Fin n) (Fin n) ℝ} (hC : C.PosSemidef) :
    ((multivariateGaussian 0 C).prod (stdGaussian (EuclideanSpace ℝ (Fin n)))).map
        (fun z => toEuclideanCLM (𝕜 := ℝ) T z.1 + toEuclideanCLM (𝕜 := ℝ) S z.2)
      = multivariateGaussian 0 C ↔ S * Sᵀ = C - T * C * Tᵀ := by
  have hp : IsProbabilityMeasure
      (((multivariateGaussian 0 C).prod (stdGaussian (EuclideanSpace ℝ (Fin n)))).map
        (fun z => toEuclideanCLM (𝕜 := ℝ) T z.1 + toEuclideanCLM (𝕜 := ℝ) S z.2)) :=
    Measure.isProbabilityMeasure_map (by fun_prop)
  have hCt : Cᵀ = C := by
    have := hC.isHermitian
    rwa [Matrix.IsHermitian, conjTranspose_eq_transpose_of_trivial] at this
  have hcf : ∀ t : EuclideanSpace ℝ (Fin n), charFun (multivariateGaussian 0 C) t
      = Complex.exp ((-(t.ofLp ⬝ᵥ C *ᵥ t.ofLp) / 2 : ℝ)) := by
    intro t
    rw [charFun_multivariateGaussian hC, inner_zero_right]
    congr 1
    push_cast
    ring
  constructor
  · intro h
    have hs : T * C * Tᵀ + S * Sᵀ = C := by
      refine symm_ext ?_ hCt fun x => ?_
      · simp [hCt, Matrix.mul_assoc]
      have h1 := congrArg (fun μ => charFun μ (WithLp.toLp 2 x)) h
      simp only [gaussian_matrix_charFun hC, hcf] at h1
      rw [← Complex.ofReal_exp, ← Complex.ofReal_exp] at h1
      have h2 := Real.exp_injective (Complex.ofReal_injective h1)
      linarith
    exact eq_sub_of_add_eq' hs
  · intro h
    refine Measure.ext_of_charFun ?_
    funext t
    rw [gaussian_matrix_charFun hC, hcf, h, add_sub_cancel]

/-- The state of the thermostat that belongs to the mass scaled extended momenta `x`, one vector
per degree of freedom. -/
noncomputable def gleState {ns : ℕ} {ι : Type} (m : ι → ℝ) (e : ℝ)
    (x : ι → EuclideanSpace ℝ (Fin (ns + 1))) : GBath ns ι :=
  ⟨fun i => x i 0 * √(m i), fun k i => x i k, e⟩

/-- The mass scaled extended momenta of a state. -/
noncomputable def gleVec {ns : ℕ} {ι : Type} (g : GBath ns ι) (i : ι) :
    EuclideanSpace ℝ (Fin (ns + 1)) := WithLp.toLp 2 fun k => g.s k i

/-- The physical momenta of the state after a step are the zeroth extended ones. -/
theorem gle_state {ns : ℕ} {ι : Type} [Fintype ι] (m : ι → ℝ)
    (T S : Matrix (Fin (ns + 1)) (Fin (ns + 1)) ℝ) (xi : Fin (ns + 1) → ι → ℝ) (g : GBath ns ι) :
    gle m T S xi g = gleState m (gle m T S xi g).ethermo (gleVec (gle m T S xi g)) := rfl

/-- The matrix whose square root is taken in `ThermoGLE.get_S` (`thermostats.py` 673). -/
noncomputable def gleSST {n : ℕ} (kb : ℝ) (C T : Matrix (Fin n) (Fin n) ℝ) :
    Matrix (Fin n) (Fin n) ℝ := kb • (C - T * (C * Tᵀ))

/-- One degree of freedom: what a step does with the extended momenta. -/
noncomputable def gleCol {n : ℕ} (T S : Matrix (Fin n) (Fin n) ℝ)
    (y : EuclideanSpace ℝ (Fin n) × (Fin n → ℝ)) : EuclideanSpace ℝ (Fin n) :=
  toEuclideanCLM (𝕜 := ℝ) T y.1 + toEuclideanCLM (𝕜 := ℝ) S (WithLp.toLp 2 y.2)

theorem gleCol_law {n : ℕ} {C T S : Matrix (Fin n) (Fin n) ℝ} (hC : C.PosSemidef) :
    ((multivariateGaussian 0 C).prod (normals (Fin n))).map (gleCol T S) = multivariateGaussian 0 C
      ↔ S * Sᵀ = C - T * C * Tᵀ := by
  rw [← gaussian_matrix_iff hC]
  have hn : IsProbabilityMeasure (normals (Fin n)) := by unfold normals; infer_instance
  have h2 := Measure.map_prod_map (multivariateGaussian 0 C) (normals (Fin n))
    (f := id) (g := WithLp.toLp 2) measurable_id
    (show Measurable (WithLp.toLp 2 : (Fin n → ℝ) → EuclideanSpace ℝ (Fin n)) by fun_prop)
  have h3 : (normals (Fin n)).map (WithLp.toLp 2)
      = stdGaussian (EuclideanSpace ℝ (Fin n)) := map_pi_eq_stdGaussian
  rw [Measure.map_id, h3] at h2
  rw [h2, Measure.map_map (by fun_prop) (by fun_prop)]
  rfl

theorem gle_cols {ns : ℕ} {ι : Type} [Fintype ι] {m : ι → ℝ} (hm : ∀ i, 0 < m i)
    (T S : Matrix (Fin (ns + 1)) (Fin (ns + 1)) ℝ) (e : ℝ)
    (z : (ι → EuclideanSpace ℝ (Fin (ns + 1))) × (ι → Fin (ns + 1) → ℝ)) :
    gleVec (gle m T S (fun k i => z.2 i k) (gleState m e z.1))
      = fun i => gleCol T S (z.1 i, z.2 i) := by
  funext i
  ext k
  have hsm : √(m i) ≠ 0 := Real.sqrt_ne_zero'.2 (hm i)
  have h0 : ∀ l : Fin (ns + 1), (if l = 0 then z.1 i 0 * √(m i) / √(m i) else z.1 i l) = z.1 i l := by
    intro l
    split
    · rename_i hl; subst hl; field_simp
    · rfl
  simp only [gleVec, gle, gleState, sm, h0, gleCol, PiLp.add_apply, ofLp_toEuclideanCLM, mulVec,
    dotProduct]

/-- **C47 (generalised Langevin).**  Let the extended momenta be Gaussian with covariance `kb C` and
independent between degrees of freedom.  They have the same distribution after a step if and only if
`C - T C Tᵀ` is positive semidefinite, whatever the eigenvectors numpy returns.  `T` need not be an
exact exponential.  If the matrix is not positive semidefinite the program only prints a warning. -/
theorem gle_stationary_iff {ns : ℕ} {ι : Type} [Fintype ι] [Nonempty ι] {m : ι → ℝ}
    (hm : ∀ i, 0 < m i) {kb : ℝ} (hk : 0 < kb) {C T : Matrix (Fin (ns + 1)) (Fin (ns + 1)) ℝ}
    (hC : C.PosSemidef) {w : Fin (ns + 1) → ℝ} {V} (hV : IsEigh (gleSST kb C T) w V) (e : ℝ) :
    ((Measure.pi fun _ : ι => multivariateGaussian 0 (kb • C)).prod
        (Measure.pi fun _ : ι => normals (Fin (ns + 1)))).map
        (fun z => gleVec (gle m T (rootOf w V) (fun k i => z.2 i k) (gleState m e z.1)))
      = (Measure.pi fun _ : ι => multivariateGaussian 0 (kb • C))
      ↔ (C - T * C * Tᵀ).PosSemidef := by
  have hkC : (kb • C).PosSemidef := hC.smul hk.le
  have hsst : gleSST kb C T = kb • C - T * (kb • C) * Tᵀ := by
    unfold gleSST
    rw [smul_sub, Matrix.mul_smul, Matrix.smul_mul, Matrix.mul_assoc]
  have hpsd : (gleSST kb C T).PosSemidef ↔ (C - T * C * Tᵀ).PosSemidef := by
    unfold gleSST
    rw [← Matrix.mul_assoc]
    constructor
    · intro h
      have := h.smul (inv_nonneg.2 hk.le)
      rwa [smul_smul, inv_mul_cancel₀ hk.ne', one_smul] at this
    · intro h
      exact h.smul hk.le
  have hn : IsProbabilityMeasure (normals (Fin (ns + 1))) := by unfold normals; infer_instance
  have hmeas : Measurable (gleCol T (rootOf w V)) := by unfold gleCol; fun_prop
  have hpi := pi_prod_map (fun _ : ι => multivariateGaussian 0 (kb • C))
    (fun _ => normals (Fin (ns + 1))) (f := fun _ => gleCol T (rootOf w V)) (fun i => hmeas)
  have hpp : IsProbabilityMeasure (((multivariateGaussian 0 (kb • C)).prod
      (normals (Fin (ns + 1)))).map (gleCol T (rootOf w V))) :=
    Measure.isProbabilityMeasure_map hmeas.aemeasurable
  simp only [gle_cols hm]
  rw [hpi, ← hpsd, ← rootOf_iff hV]
  conv_rhs => rw [hsst]
  rw [← gleCol_law hkC]
  constructor
  · intro h
    obtain ⟨i⟩ := ‹Nonempty ι›
    have h1 := congrArg (Measure.map (Function.eval i)) h
    rwa [(measurePreserving_eval _ i).map_eq, (measurePreserving_eval _ i).map_eq] at h1
  · intro h
    rw [h]

theorem gle_stationary {ns : ℕ} {ι : Type} [Fintype ι] [Nonempty ι] {m : ι → ℝ}
    (hm : ∀ i, 0 < m i) {kb : ℝ} (hk : 0 < kb) {C T : Matrix (Fin (ns + 1)) (Fin (ns + 1)) ℝ}
    (hC : C.PosSemidef) (hT : (C - T * C * Tᵀ).PosSemidef) {w : Fin (ns + 1) → ℝ} {V}
    (hV : IsEigh (gleSST kb C T) w V) (e : ℝ) :
    ((Measure.pi fun _ : ι => multivariateGaussian 0 (kb • C)).prod
        (Measure.pi fun _ : ι => normals (Fin (ns + 1)))).map
        (fun z => gleVec (gle m T (rootOf w V) (fun k i => z.2 i k) (gleState m e z.1)))
      = Measure.pi fun _ : ι => multivariateGaussian 0 (kb • C) :=
  (gle_stationary_iff hm hk hC hV e).2 hT

/-- The physical momenta of the stationary distribution are canonical when the first diagonal
element of `C` is the temperature (as it is for the default `C = temp`). -/
theorem gle_momenta {ns : ℕ} {ι : Type} [Fintype ι] {m : ι → ℝ} (hm : ∀ i, 0 < m i)
    {kb temp : ℝ} (hk : 0 ≤ kb) (ht : 0 ≤ temp) {C : Matrix (Fin (ns + 1)) (Fin (ns + 1)) ℝ}
    (hC : C.PosSemidef) (h0 : C 0 0 = temp) (e : ℝ) :
    (Measure.pi fun _ : ι => multivariateGaussian 0 (kb • C)).map (fun x => (gleState m e x).p)
      = canonical (kb * temp) m := by
  have hkC : (kb • C).PosSemidef := hC.smul hk
  have hf : Measurable fun x : EuclideanSpace ℝ (Fin (ns + 1)) => x 0 := by fun_prop
  have h := Measure.pi_map_pi (μ := fun _ : ι => multivariateGaussian 0 (kb • C))
    (f := fun i (x : EuclideanSpace ℝ (Fin (ns + 1))) => x 0 * √(m i)) (fun i => by fun_prop)
  change (Measure.pi fun _ : ι => multivariateGaussian 0 (kb • C)).map
    (fun x i => x i 0 * √(m i)) = _
  rw [h]
  unfold canonical
  congr 1
  funext i
  have h1 := (measurePreserving_eval_multivariateGaussian (μ := 0) hkC (i := 0)).map_eq
  have h2 : (fun x : EuclideanSpace ℝ (Fin (ns + 1)) => x 0 * √(m i))
      = (fun x => x * √(m i)) ∘ fun x => x 0 := rfl
  rw [h2, ← Measure.map_map (by fun_prop) hf, h1, gaussianReal_map_mul_const]
  have hn : 0 ≤ kb * temp := mul_nonneg hk ht
  congr 1
  · simp
  · ext
    simp only [Matrix.smul_apply, h0, smul_eq_mul, NNReal.coe_mul, NNReal.coe_mk,
      Real.sq_sqrt (hm i).le, Real.coe_toNNReal _ hn,
      Real.coe_toNNReal _ (mul_nonneg hn (hm i).le)]
    ring

/-! ### The condition holds for the exact drift -/

section Drift

attribute [local instance] Matrix.linftyOpNormedRing Matrix.linftyOpNormedAlgebra

/-- The quadratic form of a matrix, as a linear map of the matrix. -/
noncomputable def quad {n : ℕ} (x : Fin n → ℝ) : Matrix (Fin n) (Fin n) ℝ →L[ℝ] ℝ :=
  LinearMap.toContinuousLinearMap
    { toFun := fun M => x ⬝ᵥ M *ᵥ x
      map_add' := fun M N => by simp [add_mulVec, dotProduct_add]
      map_smul' := fun a M => by simp [smul_mulVec, dotProduct_smul] }

theorem quad_apply {n : ℕ} (x : Fin n → ℝ) (M : Matrix (Fin n) (Fin n) ℝ) :
    quad x M = x ⬝ᵥ M *ᵥ x := rfl

theorem drift_deriv {n : ℕ} (A C : Matrix (Fin n) (Fin n) ℝ) (t : ℝ) :
    HasDerivAt (fun u : ℝ => NormedSpace.exp (u • (-A)) * C * NormedSpace.exp (u • (-Aᵀ)))
      (-(NormedSpace.exp (t • (-A)) * (A * C + C * Aᵀ) * NormedSpace.exp (t • (-Aᵀ)))) t := by
  have h1 := hasDerivAt_exp_smul_const (𝕂 := ℝ) (-A) t
  have h2 := hasDerivAt_exp_smul_const' (𝕂 := ℝ) (-Aᵀ) t
  have h3 := (h1.mul_const C).mul h2
  refine h3.congr_deriv ?_
  simp only [Matrix.mul_add, Matrix.add_mul, Matrix.mul_neg, Matrix.neg_mul, Matrix.mul_assoc,
    neg_add]
  rfl

/-- If the drift matrix and the covariance satisfy the stability condition
`A C + C Aᵀ ≥ 0` then the matrix whose root is taken is positive semidefinite, for every time
step. -/
theorem gle_stable {n : ℕ} {A C : Matrix (Fin n) (Fin n) ℝ} (hC : C.PosSemidef)
    (hA : (A * C + C * Aᵀ).PosSemidef) {dt : ℝ} (hd : 0 ≤ dt) :
    (C - NormedSpace.exp (dt • (-A)) * C * (NormedSpace.exp (dt • (-A)))ᵀ).PosSemidef := by
  have hCt : Cᵀ = C := by
    have := hC.isHermitian
    rwa [Matrix.IsHermitian, conjTranspose_eq_transpose_of_trivial] at this
  refine PosSemidef.of_dotProduct_mulVec_nonneg ?_ fun x => ?_
  · rw [Matrix.IsHermitian, conjTranspose_eq_transpose_of_trivial]
    simp [hCt, Matrix.mul_assoc]
  have htr : ∀ t : ℝ, NormedSpace.exp (t • (-Aᵀ)) = (NormedSpace.exp (t • (-A)))ᵀ := by
    intro t
    rw [← Matrix.exp_transpose]
    simp
  have hanti : Antitone fun t : ℝ =>
      quad x (NormedSpace.exp (t • (-A)) * C * NormedSpace.exp (t • (-Aᵀ))) := by
    refine antitone_of_hasDerivAt_nonpos
      (fun t => (quad x).hasFDerivAt.comp_hasDerivAt t (drift_deriv A C t)) fun t => ?_
    change x ⬝ᵥ (-(NormedSpace.exp (t • -A) * (A * C + C * Aᵀ) * NormedSpace.exp (t • -Aᵀ))) *ᵥ x ≤ 0
    rw [neg_mulVec, dotProduct_neg, htr, neg_nonpos]
    have h := hA.mul_mul_conjTranspose_same (NormedSpace.exp (t • (-A)))
    rw [conjTranspose_eq_transpose_of_trivial] at h
    have := h.dotProduct_mulVec_nonneg x
    simpa using this
  have h := hanti hd
  simp only [zero_smul, NormedSpace.exp_zero, Matrix.one_mul, Matrix.mul_one, quad_apply, htr] at h
  rw [sub_mulVec, dotProduct_sub]
  simpa using h

end Drift

/-- **C47 (generalised Langevin), the default covariance.**  Drift matrices with positive
semidefinite symmetric part, exact exponential: the canonical distribution of the momenta, with the
auxiliary momenta thermal, is kept. -/
theorem gle_canonical {ns : ℕ} {ι : Type} [Fintype ι] [Nonempty ι] {m : ι → ℝ}
    (hm : ∀ i, 0 < m i) {kb temp dt : ℝ} (hk : 0 < kb) (ht : 0 ≤ temp) (hd : 0 ≤ dt)
    {A : Matrix (Fin (ns + 1)) (Fin (ns + 1)) ℝ} (hA : (A + Aᵀ).PosSemidef)
    {w : Fin (ns + 1) → ℝ} {V}
    (hV : IsEigh (gleSST kb (temp • 1) (NormedSpace.exp (dt • (-A)))) w V) (e : ℝ) :
    ((Measure.pi fun _ : ι => multivariateGaussian 0
        (kb • (temp • (1 : Matrix (Fin (ns + 1)) (Fin (ns + 1)) ℝ)))).prod
        (Measure.pi fun _ : ι => normals (Fin (ns + 1)))).map
        (fun z => (gle m (NormedSpace.exp (dt • (-A))) (rootOf w V) (fun k i => z.2 i k)
          (gleState m e z.1)).p)
      = canonical (kb * temp) m := by
  have hC : (temp • (1 : Matrix (Fin (ns + 1)) (Fin (ns + 1)) ℝ)).PosSemidef :=
    PosSemidef.one.smul ht
  have hAC : (A * (temp • 1) + (temp • 1) * Aᵀ).PosSemidef := by
    have := hA.smul ht
    simpa [smul_add] using this
  have h := gle_stationary hm hk hC (gle_stable hC hAC hd) hV e
  have h2 := gle_momenta hm hk.le ht hC (by simp) e
  have hst : Measurable fun x : ι → EuclideanSpace ℝ (Fin (ns + 1)) => (gleState m e x).p := by
    unfold gleState
    fun_prop
  have hcol : Measurable fun z : (ι → EuclideanSpace ℝ (Fin (ns + 1))) × (ι → Fin (ns + 1) → ℝ) =>
      gleVec (gle m (NormedSpace.exp (dt • (-A))) (rootOf w V) (fun k i => z.2 i k)
        (gleState m e z.1)) := by
    simp only [gle_cols hm]
    unfold gleCol
    fun_prop
  rw [← h2]
  conv_rhs => rw [← h, Measure.map_map hst hcol]
  rfl

/-- A drift matrix with two auxiliary momenta meets the condition. -/
example : ((!![1, 2; -2, 3] : Matrix (Fin 2) (Fin 2) ℝ) + (!![1, 2; -2, 3])ᵀ).PosSemidef := by
  have h : ((!![1, 2; -2, 3] : Matrix (Fin 2) (Fin 2) ℝ) + (!![1, 2; -2, 3])ᵀ) = diagonal ![2, 6] := by
    ext i j
    fin_cases i <;> fin_cases j <;> simp <;> norm_num
  rw [h, posSemidef_diagonal_iff]
  intro i
  fin_cases i <;> norm_num

/-- A drift that heats: with negative friction the condition fails, so the distribution is not kept
although the program goes on. -/
theorem gle_heating {w : Fin 1 → ℝ} {V} {kb temp : ℝ} (hk : 0 < kb) (ht : 0 < temp)
    (hV : IsEigh (gleSST kb (temp • 1) ((2 : ℝ) • 1)) w V) (e : ℝ) :
    ((Measure.pi fun _ : Fin 1 => multivariateGaussian 0
        (kb • (temp • (1 : Matrix (Fin 1) (Fin 1) ℝ)))).prod
        (Measure.pi fun _ : Fin 1 => normals (Fin 1))).map
        (fun z => gleVec (gle (fun _ => 1) ((2 : ℝ) • 1) (rootOf w V) (fun k i => z.2 i k)
          (gleState (fun _ => 1) e z.1)))
      ≠ (Measure.pi fun _ : Fin 1 => multivariateGaussian 0
        (kb • (temp • (1 : Matrix (Fin 1) (Fin 1) ℝ)))) := by
  intro h
  have h1 := (gle_stationary_iff (fun _ => one_pos) hk (PosSemidef.one.smul ht.le) hV e).1 h
  have h2 := h1.diag_nonneg (i := 0)
  simp [Matrix.mul_apply] at h2
  linarith

end Verif.Thermo
