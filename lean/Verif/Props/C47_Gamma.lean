import Verif.Props.C47_Rescaling
import Mathlib.Probability.Distributions.Gamma
import Mathlib.Analysis.SpecialFunctions.Gaussian.GaussianIntegral
import Mathlib.MeasureTheory.Integral.ExpDecay
import Mathlib.MeasureTheory.Integral.IntegralEqImproper

/-!
# C47: the random number drawn by the velocity rescaling thermostat

`ThermoSVR.step` needs the sum of the squares of `ndof - 1` normal numbers and draws it as twice a
gamma variate of integer order, plus one square when the number is odd (`thermostats.py` 514-517).
The two have the same distribution.
-/

namespace Verif.Thermo

open MeasureTheory ProbabilityTheory Filter Asymptotics Set
open scoped Topology NNReal ENNReal

theorem pow_exp_integrable (n : ℕ) {b : ℂ} (hb : 0 < b.re) :
    IntegrableOn (fun x : ℝ => (x : ℂ) ^ n * Complex.exp (-b * x)) (Ioi 0) := by
  have hc : Continuous fun x : ℝ => (x : ℂ) ^ n * Complex.exp (-b * x) := by fun_prop
  have h0 : IntegrableOn (fun x : ℝ => x ^ n * Real.exp (-b.re * x)) (Ioi 0) := by
    refine integrable_of_isBigO_exp_neg (b := b.re / 2) (by positivity) (by fun_prop) ?_
    have h := (isLittleO_pow_exp_pos_mul_atTop (k := n) (b := b.re / 2) (by positivity)).isBigO
    refine (h.mul (isBigO_refl (fun x : ℝ => Real.exp (-b.re * x)) atTop)).congr_right fun x => ?_
    rw [← Real.exp_add]
    congr 1
    ring
  refine Integrable.mono' h0 hc.aestronglyMeasurable ?_
  filter_upwards [ae_restrict_mem measurableSet_Ioi] with x hx
  rw [norm_mul, Complex.norm_exp]
  simp [abs_of_pos (show (0 : ℝ) < x from hx)]

theorem pow_exp_tendsto (n : ℕ) {b : ℂ} (hb : 0 < b.re) :
    Tendsto (fun x : ℝ => (x : ℂ) ^ n * Complex.exp (-b * x)) atTop (𝓝 0) := by
  rw [tendsto_zero_iff_norm_tendsto_zero]
  have h := (isLittleO_pow_exp_pos_mul_atTop (k := n) hb).tendsto_div_nhds_zero
  have h2 := h.norm
  rw [norm_zero] at h2
  refine h2.congr fun x => ?_
  rw [norm_mul, Complex.norm_exp, norm_div, Real.norm_of_nonneg (Real.exp_pos _).le]
  simp [Real.exp_neg, div_eq_mul_inv]

theorem pow_exp_deriv (n : ℕ) {b : ℂ} (hb0 : b ≠ 0) (x : ℝ) :
    HasDerivAt (fun x : ℝ => -(((x : ℂ) ^ n * Complex.exp (-b * x)) / b))
      ((x : ℂ) ^ n * Complex.exp (-b * x) - n / b * ((x : ℂ) ^ (n - 1) * Complex.exp (-b * x))) x := by
  have h1 : HasDerivAt (fun z : ℂ => Complex.exp (-b * z)) (Complex.exp (-b * x) * (-b * 1)) (x : ℂ) :=
    ((hasDerivAt_id (x : ℂ)).const_mul (-b)).cexp
  have h3 : HasDerivAt (fun z : ℂ => -((z ^ n * Complex.exp (-b * z)) / b)) _ (x : ℂ) :=
    (((hasDerivAt_pow n (x : ℂ)).mul h1).div_const b).neg
  refine h3.comp_ofReal.congr_deriv ?_
  field_simp
  ring

/-- The Laplace transform of a power. -/
theorem laplace_pow (n : ℕ) {b : ℂ} (hb : 0 < b.re) :
    ∫ x : ℝ in Ioi 0, (x : ℂ) ^ n * Complex.exp (-b * x) = n.factorial / b ^ (n + 1) := by
  have hb0 : b ≠ 0 := by rintro rfl; simp at hb
  induction n with
  | zero =>
    have h := integral_Ioi_of_hasDerivAt_of_tendsto' (a := 0)
      (f := fun x : ℝ => -(((x : ℂ) ^ 0 * Complex.exp (-b * x)) / b))
      (f' := fun x : ℝ => (x : ℂ) ^ 0 * Complex.exp (-b * x)) (m := 0) (fun x _ => ?_)
      (pow_exp_integrable 0 hb) ?_
    · rw [h]
      simp
    · simpa using pow_exp_deriv 0 hb0 x
    · simpa using ((pow_exp_tendsto 0 hb).div_const b).neg
  | succ n ih =>
    have h := integral_Ioi_of_hasDerivAt_of_tendsto' (a := 0)
      (f := fun x : ℝ => -(((x : ℂ) ^ (n + 1) * Complex.exp (-b * x)) / b))
      (f' := fun x : ℝ => (x : ℂ) ^ (n + 1) * Complex.exp (-b * x)
        - ((n + 1 : ℕ) / b) * ((x : ℂ) ^ n * Complex.exp (-b * x))) (m := 0) (fun x _ => ?_)
      ((pow_exp_integrable (n + 1) hb).sub ((pow_exp_integrable n hb).const_mul _)) ?_
    · rw [integral_sub (pow_exp_integrable (n + 1) hb) ((pow_exp_integrable n hb).const_mul _),
        integral_const_mul, ih] at h
      rw [sub_eq_iff_eq_add] at h
      rw [h, Nat.factorial_succ]
      push_cast
      simp only [ne_eq, Nat.succ_ne_zero, not_false_eq_true, zero_pow, zero_mul,
        zero_div, neg_zero, sub_zero, zero_add]
      field_simp
      ring
    · exact pow_exp_deriv (n + 1) hb0 x
    · simpa using ((pow_exp_tendsto (n + 1) hb).div_const b).neg

/-- The law of the number returned by `Random.gamma` (`prng.py` 113-125) for an integer order: numpy
returns zero for order zero. -/
noncomputable def gammaLaw : ℕ → Measure ℝ
  | 0 => Measure.dirac 0
  | j + 1 => gammaMeasure (j + 1) 1

noncomputable instance (j : ℕ) : IsProbabilityMeasure (gammaLaw j) := by
  cases j with
  | zero => unfold gammaLaw; infer_instance
  | succ j => exact isProbabilityMeasure_gammaMeasure (by positivity) one_pos

theorem charFun_gammaLaw (j : ℕ) (t : ℝ) :
    charFun ((gammaLaw j).map (2 * ·)) t = (1 / (1 - 2 * t * Complex.I)) ^ j := by
  rw [charFun_map_mul]
  cases j with
  | zero => simp [gammaLaw, charFun_dirac]
  | succ j =>
    rw [charFun_apply_real]
    unfold gammaLaw gammaMeasure
    rw [integral_withDensity_eq_integral_toReal_smul₀
      (by unfold gammaPDF; exact (measurable_gammaPDFReal _ _).ennreal_ofReal.aemeasurable)
      (Eventually.of_forall fun x => by simp [gammaPDF])]
    have hb : (0 : ℝ) < (1 - 2 * t * Complex.I : ℂ).re := by simp
    have h := laplace_pow j hb
    have hnn : ∀ x, 0 ≤ gammaPDFReal (j + 1) 1 x :=
      gammaPDFReal_nonneg (by positivity) one_pos
    have e1 : ∀ x : ℝ, (gammaPDF (j + 1) 1 x).toReal • Complex.exp ((2 * t : ℝ) * x * Complex.I)
        = (Ici (0 : ℝ)).indicator (fun x : ℝ => (1 / (j.factorial : ℂ)) * ((x : ℂ) ^ j
          * Complex.exp (-(1 - 2 * t * Complex.I) * x))) x := by
      intro x
      rw [gammaPDF, ENNReal.toReal_ofReal (hnn x)]
      unfold gammaPDFReal
      by_cases hx : 0 ≤ x
      · rw [if_pos hx, indicator_of_mem (by exact hx)]
        rw [Real.Gamma_nat_eq_factorial, add_sub_cancel_right, Real.rpow_natCast, Real.one_rpow,
          Complex.real_smul]
        push_cast
        rw [show -(1 - 2 * (t : ℂ) * Complex.I) * x = -(1 * (x : ℂ)) + 2 * t * x * Complex.I by ring,
          Complex.exp_add]
        ring
      · rw [if_neg hx, indicator_of_notMem (by exact hx)]
        simp
    simp only [e1]
    rw [integral_indicator measurableSet_Ici, integral_Ici_eq_integral_Ioi, integral_const_mul, h]
    have : (j.factorial : ℂ) ≠ 0 := by exact_mod_cast j.factorial_ne_zero
    rw [div_pow, one_pow]
    field_simp

theorem charFun_square (t : ℝ) :
    ∫ x, Complex.exp (t * (x ^ 2 : ℝ) * Complex.I) ∂(gaussianReal 0 1)
      = (√(2 * Real.pi) : ℂ)⁻¹ * (Real.pi / (1 / 2 - t * Complex.I)) ^ (1 / 2 : ℂ) := by
  have hb : (0 : ℝ) < (1 / 2 - t * Complex.I : ℂ).re := by simp
  rw [integral_gaussianReal_eq_integral_smul one_ne_zero, ← integral_gaussian_complex hb,
    ← integral_const_mul]
  congr 1
  funext x
  rw [gaussianPDFReal]
  simp only [NNReal.coe_one, mul_one, sub_zero, Complex.real_smul]
  push_cast
  rw [mul_assoc, ← Complex.exp_add]
  congr 2
  ring

theorem charFun_chiSq_two (j : ℕ) (t : ℝ) :
    charFun (chiSq (2 * j)) t = (1 / (1 - 2 * t * Complex.I)) ^ j := by
  unfold chiSq normals
  rw [charFun_apply_real, integral_map (sumsq_measurable _).aemeasurable (by fun_prop)]
  have e : ∀ r : Fin (2 * j) → ℝ, Complex.exp (t * ((∑ i, r i ^ 2 : ℝ) : ℂ) * Complex.I)
      = ∏ i, Complex.exp (t * (r i ^ 2 : ℝ) * Complex.I) := by
    intro r
    rw [← Complex.exp_sum]
    congr 1
    push_cast
    rw [Finset.mul_sum, Finset.sum_mul]
  simp only [e]
  rw [integral_fintype_prod_eq_prod (𝕜 := ℂ)
    (f := fun _ (x : ℝ) => Complex.exp (t * (x ^ 2 : ℝ) * Complex.I))]
  simp only [charFun_square, Finset.prod_const, Finset.card_univ, Fintype.card_fin]
  rw [pow_mul]
  congr 1
  have hb : (1 / 2 - t * Complex.I : ℂ) ≠ 0 := by
    intro h
    have := congrArg Complex.re h
    simp at this
  have hb2 : (1 - 2 * t * Complex.I : ℂ) ≠ 0 := by
    intro h
    have := congrArg Complex.re h
    simp at this
  have hpi : (Real.pi : ℂ) ≠ 0 := by exact_mod_cast Real.pi_ne_zero
  rw [mul_pow, ← Complex.cpow_nat_mul]
  rw [show ((2 : ℕ) : ℂ) * (1 / 2) = 1 by norm_num, Complex.cpow_one, inv_pow,
    ← Complex.ofReal_pow, Real.sq_sqrt (by positivity)]
  push_cast
  rw [show (1 / 2 - t * Complex.I : ℂ) = (1 - 2 * t * Complex.I) / 2 by ring]
  field_simp

/-- Twice a gamma variate of integer order: the sum of the squares of an even number of normal
numbers. -/
theorem gamma_chiSq (j : ℕ) : (gammaLaw j).map (2 * ·) = chiSq (2 * j) := by
  have hp : IsProbabilityMeasure ((gammaLaw j).map (2 * ·)) :=
    Measure.isProbabilityMeasure_map (by fun_prop)
  refine Measure.ext_of_charFun ?_
  funext t
  rw [charFun_gammaLaw, charFun_chiSq_two]

theorem chiSq_succ (k : ℕ) :
    ((chiSq k).prod (gaussianReal 0 1)).map (fun z => z.1 + z.2 ^ 2) = chiSq (k + 1) := by
  have h := normal_chiSq k
  rw [← Measure.prod_swap, Measure.map_map (by fun_prop) measurable_swap, h,
    Measure.map_map (by fun_prop) (by fun_prop)]
  unfold chiSq
  congr 1
  funext r
  simp only [Function.comp, Prod.swap, Fin.sum_univ_succ]
  ring

/-- **C47 (velocity rescaling).**  The number `rg` computed by the program has the distribution of
the sum of the squares of `ndof - 1` independent standard normal numbers. -/
theorem svrRg_law {ndof : ℕ} (h : 1 ≤ ndof) :
    ((gammaLaw ((ndof - 1) / 2)).prod (gaussianReal 0 1)).map (fun z => svrRg ndof z.1 z.2)
      = chiSq (ndof - 1) := by
  have hm := Measure.map_prod_map (gammaLaw ((ndof - 1) / 2)) (gaussianReal 0 1)
    (f := (2 * ·)) (g := id) (by fun_prop) measurable_id
  rw [Measure.map_id, gamma_chiSq] at hm
  unfold svrRg
  by_cases he : (ndof - 1) % 2 = 0
  · simp only [he, if_true]
    have hd : 2 * ((ndof - 1) / 2) = ndof - 1 := by omega
    have h2 : (fun z : ℝ × ℝ => 2 * z.1) = (2 * ·) ∘ Prod.fst := rfl
    rw [h2, ← Measure.map_map (by fun_prop) measurable_fst, Measure.map_fst_prod]
    simp [gamma_chiSq, hd]
  · simp only [he, if_false]
    have hd : 2 * ((ndof - 1) / 2) + 1 = ndof - 1 := by omega
    conv_rhs => rw [← hd, ← chiSq_succ, hm, Measure.map_map (by fun_prop) (by fun_prop)]
    rfl

/-- **C47 (velocity rescaling), with the numbers the program draws.**  A normal number, a gamma
variate and a second normal number. -/
theorem svr_canonical_drawn {ι : Type} [Fintype ι] {m : ι → ℝ} (hm : ∀ i, 0 < m i)
    {kb temp dt tau : ℝ} (hk : 0 < kb * temp) (hd : 0 ≤ dt) (htau : 0 < tau)
    (V : Submodule ℝ (EuclideanSpace ℝ ι)) {ndof : ℕ} (hn : 1 ≤ ndof)
    (hV : Module.finrank ℝ V = ndof) (e : ℝ) :
    ((canonicalOn (kb * temp) m V).prod ((gaussianReal 0 1).prod
        ((gammaLaw ((ndof - 1) / 2)).prod (gaussianReal 0 1)))).map
        (fun z => (svr m (expT dt tau) (svrK kb temp) z.2.1 (svrRg ndof z.2.2.1 z.2.2.2)
          ⟨z.1, e⟩).p)
      = canonicalOn (kb * temp) m V := by
  have hp : IsProbabilityMeasure (canonicalOn (kb * temp) m V) := by
    unfold canonicalOn
    exact Measure.isProbabilityMeasure_map (by fun_prop)
  have hrg : Measurable fun z : ℝ × ℝ => svrRg ndof z.1 z.2 := by
    unfold svrRg
    split <;> fun_prop
  have h := svr_canonical_on hm hk hd htau V (k := ndof - 1) (by omega) e
  have h1 := Measure.map_prod_map (gaussianReal 0 1)
    ((gammaLaw ((ndof - 1) / 2)).prod (gaussianReal 0 1)) measurable_id hrg
  rw [Measure.map_id, svrRg_law hn] at h1
  have h2 := Measure.map_prod_map (canonicalOn (kb * temp) m V) ((gaussianReal 0 1).prod
    ((gammaLaw ((ndof - 1) / 2)).prod (gaussianReal 0 1))) measurable_id
    (show Measurable (Prod.map id fun z : ℝ × ℝ => svrRg ndof z.1 z.2) by fun_prop)
  rw [Measure.map_id, ← h1] at h2
  conv_rhs => rw [← h]
  rw [h2, Measure.map_map (svr_measurable m (expT dt tau) (svrK kb temp) e) (by fun_prop)]
  rfl

end Verif.Thermo
