import Mathlib.Probability.Distributions.Gaussian.Multivariate
import Mathlib.Analysis.InnerProductSpace.Projection.Reflection

/-!
# Rotation invariant distributions

General facts (no part of i-PI is modelled here) used for the invariance statements of C47: a
probability distribution on a Euclidean space that is invariant under all linear isometries is
determined by the distribution of the norm.
-/

namespace Verif.Gauss

open MeasureTheory ProbabilityTheory
open scoped RealInnerProductSpace NNReal

variable {E : Type*} [NormedAddCommGroup E] [InnerProductSpace ℝ E] [FiniteDimensional ℝ E]
  [MeasurableSpace E] [BorelSpace E]

/-- Invariance under all linear isometries. -/
def IsoInv (μ : Measure E) : Prop := ∀ O : E ≃ₗᵢ[ℝ] E, μ.map O = μ

theorem iso_measurable (O : E ≃ₗᵢ[ℝ] E) : Measurable O := O.continuous.measurable

theorem isoInv_stdGaussian : IsoInv (stdGaussian E) := fun O => stdGaussian_map O

theorem exists_iso {x y : E} (h : ‖x‖ = ‖y‖) : ∃ O : E ≃ₗᵢ[ℝ] E, O x = y :=
  ⟨(Submodule.span ℝ {x - y})ᗮ.reflection, Submodule.reflection_sub h⟩

/-- The characteristic function of an invariant measure is invariant. -/
theorem charFun_iso {μ : Measure E} (h : IsoInv μ) (O : E ≃ₗᵢ[ℝ] E) (t : E) :
    charFun μ (O t) = charFun μ t := by
  conv_lhs => rw [← h O]
  rw [charFun_apply, charFun_apply, integral_map (iso_measurable O).aemeasurable
    (by fun_prop)]
  simp only [LinearIsometryEquiv.inner_map_map]

theorem charFun_norm {μ : Measure E} (h : IsoInv μ) {s t : E} (hst : ‖s‖ = ‖t‖) :
    charFun μ s = charFun μ t := by
  obtain ⟨O, rfl⟩ := exists_iso hst
  exact (charFun_iso h O s).symm

theorem stdGaussian_zero [Nontrivial E] : stdGaussian E {0} = 0 := by
  obtain ⟨e, he⟩ := exists_ne (0 : E)
  have h1 : (stdGaussian E).map (innerSL ℝ e) = gaussianReal 0 (‖e‖ ^ 2).toNNReal := by
    rw [IsGaussian.map_eq_gaussianReal, integral_strongDual_stdGaussian,
      variance_dual_stdGaussian, innerSL_apply_norm]
  have hv : (‖e‖ ^ 2).toNNReal ≠ 0 := by
    simp only [ne_eq, Real.toNNReal_eq_zero, not_le]
    positivity
  have := nullSingletonClass_gaussianReal (μ := 0) hv
  have h2 : gaussianReal 0 (‖e‖ ^ 2).toNNReal {0} = 0 := measure_singleton _
  rw [← h1, Measure.map_apply (by fun_prop) (measurableSet_singleton _)] at h2
  refine measure_mono_null ?_ h2
  rintro x rfl
  simp

/-- The direction of a vector. -/
noncomputable def dir (g : E) : E := ‖g‖⁻¹ • g

theorem dir_measurable : Measurable (dir : E → E) := by
  unfold dir
  fun_prop

theorem norm_dir {g : E} (h : g ≠ 0) : ‖dir g‖ = 1 := by
  unfold dir
  rw [norm_smul, norm_inv, norm_norm, inv_mul_cancel₀ (norm_ne_zero_iff.2 h)]

theorem dir_iso (O : E ≃ₗᵢ[ℝ] E) (g : E) : dir (O g) = O (dir g) := by
  unfold dir
  rw [O.norm_map, map_smul]

/-- Average of `exp(i⟨x,t⟩)` over directions. -/
noncomputable def avg (r : ℝ) (x : E) : ℂ :=
  ∫ g, Complex.exp (⟪x, r • dir g⟫ * Complex.I) ∂(stdGaussian E)

theorem avg_norm (r : ℝ) {x y : E} (h : ‖x‖ = ‖y‖) : avg r x = avg r y := by
  obtain ⟨O, rfl⟩ := exists_iso h
  unfold avg
  have hm := dir_measurable (E := E)
  conv_rhs => rw [← isoInv_stdGaussian O]
  rw [integral_map (iso_measurable O).aemeasurable (by
    refine Measurable.aestronglyMeasurable ?_
    fun_prop)]
  congr with g
  rw [dir_iso, ← map_smul, O.inner_map_map]

theorem charFun_avg [Nontrivial E] {μ : Measure E} [IsProbabilityMeasure μ] (h : IsoInv μ) (t : E) :
    charFun μ t = ∫ x, avg ‖t‖ x ∂μ := by
  have hm := dir_measurable (E := E)
  have h1 : charFun μ t = ∫ g, charFun μ (‖t‖ • dir g) ∂(stdGaussian E) := by
    have h0 : ∫ _, charFun μ t ∂(stdGaussian E) = charFun μ t := by simp
    rw [← h0]
    refine integral_congr_ae ?_
    have : ∀ᵐ g ∂(stdGaussian E), g ≠ 0 := by
      rw [ae_iff]
      simpa using stdGaussian_zero (E := E)
    filter_upwards [this] with g hg
    refine charFun_norm h ?_
    rw [norm_smul, norm_norm, norm_dir hg, mul_one]
  rw [h1]
  simp only [charFun_apply, avg]
  refine integral_integral_swap ?_
  refine Integrable.of_bound (C := 1) ?_ ?_
  · refine Measurable.aestronglyMeasurable ?_
    fun_prop
  · refine Filter.Eventually.of_forall fun z => ?_
    simp only [Function.uncurry]
    rw [Complex.norm_exp_ofReal_mul_I]

/-- **Radial distributions.**  Invariant probability distributions with the same distribution of
the norm agree. -/
theorem radial_ext {μ ν : Measure E} [IsProbabilityMeasure μ] [IsProbabilityMeasure ν]
    (hμ : IsoInv μ) (hν : IsoInv ν) (h : μ.map (fun x => ‖x‖) = ν.map (fun x => ‖x‖)) : μ = ν := by
  rcases subsingleton_or_nontrivial E with hs | hn
  · refine Measure.ext_of_charFun ?_
    funext t
    rw [Subsingleton.elim t 0]
    simp
  · refine Measure.ext_of_charFun ?_
    funext t
    rw [charFun_avg hμ, charFun_avg hν]
    obtain ⟨e, he⟩ := exists_norm_eq E (zero_le_one (α := ℝ))
    have key : ∀ x : E, avg ‖t‖ x = (fun r : ℝ => avg ‖t‖ (r • e)) ‖x‖ := fun x =>
      avg_norm _ (by rw [norm_smul, norm_norm, he, mul_one])
    have hmeas : StronglyMeasurable (fun r : ℝ => avg ‖t‖ (r • e)) := by
      unfold avg
      have hm := dir_measurable (E := E)
      exact (Measurable.stronglyMeasurable (by fun_prop)).integral_prod_left
        (f := fun g r => Complex.exp (⟪r • e, ‖t‖ • dir g⟫ * Complex.I))
    rw [integral_congr_ae (Filter.Eventually.of_forall key),
      integral_congr_ae (μ := ν) (Filter.Eventually.of_forall key)]
    have i1 := integral_map (μ := μ) (φ := fun x : E => ‖x‖) (by fun_prop)
      hmeas.aestronglyMeasurable
    have i2 := integral_map (μ := ν) (φ := fun x : E => ‖x‖) (by fun_prop)
      hmeas.aestronglyMeasurable
    rw [← i1, ← i2, h]

/-- Two equivariant functions of the same random input with the same norm have the same law. -/
theorem law_of_norm {X : Type*} [MeasurableSpace X] {P : Measure X} [IsProbabilityMeasure P]
    {f g : X → E} (hf : Measurable f) (hg : Measurable g) (if_ : IsoInv (P.map f))
    (ig : IsoInv (P.map g)) (h : ∀ᵐ x ∂P, ‖f x‖ = ‖g x‖) : P.map f = P.map g := by
  have := Measure.isProbabilityMeasure_map (μ := P) hf.aemeasurable
  have := Measure.isProbabilityMeasure_map (μ := P) hg.aemeasurable
  refine radial_ext if_ ig ?_
  rw [Measure.map_map (by fun_prop) hf, Measure.map_map (by fun_prop) hg]
  exact Measure.map_congr h

/-- The law of an equivariant function of an invariant input is invariant. -/
theorem isoInv_map {X : Type*} [MeasurableSpace X] {P : Measure X} {f : X → E} (hf : Measurable f)
    (act : (E ≃ₗᵢ[ℝ] E) → X → X) (ha : ∀ O, Measurable (act O)) (hP : ∀ O, P.map (act O) = P)
    (hfe : ∀ O x, f (act O x) = O (f x)) : IsoInv (P.map f) := by
  intro O
  rw [Measure.map_map (iso_measurable O) hf]
  conv_rhs => rw [← hP O]
  rw [Measure.map_map hf (ha O)]
  congr 1
  funext x
  exact (hfe O x).symm

/-- Sum of linear images of independent variables. -/
theorem charFun_lin {F G : Type*} [NormedAddCommGroup F] [InnerProductSpace ℝ F]
    [FiniteDimensional ℝ F] [MeasurableSpace F] [BorelSpace F] [NormedAddCommGroup G]
    [InnerProductSpace ℝ G] [FiniteDimensional ℝ G] [MeasurableSpace G] [BorelSpace G]
    {μ : Measure F} {ν : Measure G} [IsProbabilityMeasure μ] [IsProbabilityMeasure ν]
    (A : F →L[ℝ] E) (B : G →L[ℝ] E) (t : E) :
    charFun ((μ.prod ν).map fun z => A z.1 + B z.2) t
      = charFun μ (ContinuousLinearMap.adjoint A t) * charFun ν (ContinuousLinearMap.adjoint B t) := by
  rw [charFun_apply, integral_map (by fun_prop) (by fun_prop), charFun_apply, charFun_apply,
    ← integral_prod_mul]
  congr with z
  rw [← Complex.exp_add, ContinuousLinearMap.adjoint_inner_right,
    ContinuousLinearMap.adjoint_inner_right, inner_add_left]
  push_cast
  ring_nf

/-- Damping and noise with `c² + s² = 1` leave the standard Gaussian invariant. -/
theorem comb {c s : ℝ} (h : c ^ 2 + s ^ 2 = 1) :
    ((stdGaussian E).prod (stdGaussian E)).map (fun z => c • z.1 + s • z.2) = stdGaussian E := by
  have hp : IsProbabilityMeasure
      (((stdGaussian E).prod (stdGaussian E)).map (fun z => c • z.1 + s • z.2)) :=
    Measure.isProbabilityMeasure_map (by fun_prop)
  refine Measure.ext_of_charFun ?_
  funext t
  have := charFun_lin (μ := stdGaussian E) (ν := stdGaussian E)
    (c • ContinuousLinearMap.id ℝ E) (s • ContinuousLinearMap.id ℝ E) t
  have e1 : ∀ a : ℝ, ContinuousLinearMap.adjoint (a • ContinuousLinearMap.id ℝ E) t = a • t := by
    intro a
    refine ext_inner_right ℝ fun v => ?_
    rw [ContinuousLinearMap.adjoint_inner_left]
    simp [inner_smul_left, inner_smul_right]
  simp only [e1, ContinuousLinearMap.smul_apply, ContinuousLinearMap.id_apply,
    charFun_stdGaussian] at this
  rw [this, charFun_stdGaussian, ← Complex.exp_add]
  congr 1
  rw [norm_smul, norm_smul]
  simp only [Real.norm_eq_abs, Complex.ofReal_mul]
  have h' : ((|c| : ℝ) : ℂ) ^ 2 + ((|s| : ℝ) : ℂ) ^ 2 = 1 := by
    rw [← Complex.ofReal_pow, ← Complex.ofReal_pow, sq_abs, sq_abs]
    exact_mod_cast h
  push_cast
  linear_combination (-(‖t‖ : ℂ) ^ 2 / 2) * h'

/-- Adding Gaussian noise to a vector of given length along a fixed direction has the same effect
on the norm as adding it to the vector itself. -/
theorem rotate_noise {e : E} (he : ‖e‖ = 1) (c s : ℝ) (x : E) :
    (stdGaussian E).map (fun r => ‖(c * ‖x‖) • e + s • r‖)
      = (stdGaussian E).map (fun r => ‖c • x + s • r‖) := by
  obtain ⟨O, hO⟩ := exists_iso (x := ‖x‖ • e) (y := x) (by rw [norm_smul, norm_norm, he, mul_one])
  conv_rhs => rw [← isoInv_stdGaussian O]
  rw [Measure.map_map (by fun_prop) (iso_measurable O)]
  congr 1
  funext r
  simp only [Function.comp]
  have : O ((c * ‖x‖) • e + s • r) = c • x + s • O r := by
    rw [mul_smul, map_add, map_smul, hO, map_smul]
  rw [← O.norm_map, this]

theorem rotate_norm {e : E} (he : ‖e‖ = 1) {c s : ℝ} (h : c ^ 2 + s ^ 2 = 1) :
    ((stdGaussian E).prod (stdGaussian E)).map (fun z => ‖(c * ‖z.1‖) • e + s • z.2‖)
      = (stdGaussian E).map (fun x => ‖x‖) := by
  have h1 : ((stdGaussian E).prod (stdGaussian E)).map (fun z => ‖(c * ‖z.1‖) • e + s • z.2‖)
      = ((stdGaussian E).prod (stdGaussian E)).map (fun z => ‖c • z.1 + s • z.2‖) := by
    ext A hA
    rw [Measure.map_apply (by fun_prop) hA, Measure.map_apply (by fun_prop) hA,
      Measure.prod_apply (by measurability), Measure.prod_apply (by measurability)]
    refine lintegral_congr fun x => ?_
    have := congrArg (fun m : Measure ℝ => m A) (rotate_noise he c s x)
    rw [Measure.map_apply (by fun_prop) hA, Measure.map_apply (by fun_prop) hA] at this
    exact this
  rw [h1]
  conv_rhs => rw [← comb (E := E) h]
  rw [Measure.map_map (by fun_prop) (by fun_prop)]
  rfl

end Verif.Gauss
