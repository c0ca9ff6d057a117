import Verif.Props.C47_Rescaling
import Mathlib.Tactic.LinearCombination

/-!
# C71: the velocity rescaling thermostat needs the right number of degrees of freedom

`ThermoSVR` draws its random numbers for `self.ndof` degrees of freedom.  The mean kinetic energy it
leads to is that of `ndof` degrees of freedom, whatever the number the momenta really have.
-/

namespace Verif.Thermo

open MeasureTheory ProbabilityTheory Verif.Gauss
open scoped RealInnerProductSpace NNReal

theorem integrable_sq_normal : Integrable (fun x : ℝ => x ^ 2) (gaussianReal 0 1) :=
  (memLp_id_gaussianReal 2).integrable_sq

theorem integral_sq_normal : ∫ x, x ^ 2 ∂(gaussianReal 0 1) = 1 := by
  have h := variance_fun_id_gaussianReal (μ := 0) (v := 1)
  rw [variance_eq_integral (by fun_prop)] at h
  simpa using h

theorem integrable_normal : Integrable (fun x : ℝ => x) (gaussianReal 0 1) :=
  (memLp_id_gaussianReal 1).integrable (by simp)

theorem integrable_sumsq (k : ℕ) : Integrable (fun r : Fin k → ℝ => ∑ i, r i ^ 2) (normals (Fin k)) :=
  integrable_finsetSum _ fun i _ =>
    ((measurePreserving_eval (fun _ : Fin k => gaussianReal 0 1) i).integrable_comp
      integrable_sq_normal.aestronglyMeasurable).2 integrable_sq_normal

theorem integral_sumsq (k : ℕ) : ∫ r, ∑ i, r i ^ 2 ∂(normals (Fin k)) = k := by
  have hi : ∀ i ∈ (Finset.univ : Finset (Fin k)),
      Integrable (fun r : Fin k → ℝ => r i ^ 2) (normals (Fin k)) := fun i _ =>
    ((measurePreserving_eval (fun _ : Fin k => gaussianReal 0 1) i).integrable_comp
      integrable_sq_normal.aestronglyMeasurable).2 integrable_sq_normal
  rw [integral_finsetSum _ hi]
  have : ∀ i : Fin k, ∫ r : Fin k → ℝ, r i ^ 2 ∂(normals (Fin k)) = 1 := fun i => by
    have h := (measurePreserving_eval (fun _ : Fin k => gaussianReal 0 1) i)
    have h2 := integral_map (μ := normals (Fin k)) (φ := Function.eval i) (f := fun x : ℝ => x ^ 2)
      (measurable_pi_apply i).aemeasurable (by fun_prop)
    rw [show (normals (Fin k)).map (Function.eval i) = gaussianReal 0 1 from h.map_eq,
      integral_sq_normal] at h2
    exact h2.symm
  simp [this]

theorem integral_chiSq (k : ℕ) : ∫ x, x ∂(chiSq k) = k := by
  unfold chiSq
  rw [integral_map (sumsq_measurable k).aemeasurable (by fun_prop)]
  exact integral_sumsq k

theorem integrable_chiSq (k : ℕ) : Integrable (fun x : ℝ => x) (chiSq k) := by
  unfold chiSq
  rw [integrable_map_measure (by fun_prop) (sumsq_measurable k).aemeasurable]
  exact integrable_sumsq k

section
variable {E : Type} [NormedAddCommGroup E] [InnerProductSpace ℝ E] [FiniteDimensional ℝ E]
  [MeasurableSpace E] [BorelSpace E]

omit [MeasurableSpace E] [BorelSpace E] in
theorem norm_sq_coord (x : Fin (Module.finrank ℝ E) → ℝ) :
    ‖∑ i, x i • stdOrthonormalBasis ℝ E i‖ ^ 2 = ∑ i, x i ^ 2 := by
  rw [← (stdOrthonormalBasis ℝ E).sum_sq_norm_inner_right]
  simp only [(stdOrthonormalBasis ℝ E).orthonormal.inner_right_fintype, Real.norm_eq_abs, sq_abs]

theorem integrable_norm_sq : Integrable (fun x : E => ‖x‖ ^ 2) (stdGaussian E) := by
  unfold stdGaussian
  rw [integrable_map_measure (by fun_prop) (Measurable.aemeasurable (by fun_prop))]
  simp only [Function.comp_def, norm_sq_coord]
  exact integrable_sumsq _

theorem integral_norm_sq : ∫ x : E, ‖x‖ ^ 2 ∂(stdGaussian E) = Module.finrank ℝ E := by
  unfold stdGaussian
  rw [integral_map (Measurable.aemeasurable (by fun_prop)) (by fun_prop)]
  simp only [norm_sq_coord]
  exact integral_sumsq _

theorem integrable_norm : Integrable (fun x : E => ‖x‖) (stdGaussian E) :=
  IsGaussian.integrable_id.norm

/-- The mean square norm after the rescaling. -/
theorem svrE_mean [Nontrivial E] (k : ℕ) {et kT : ℝ} (h0 : 0 ≤ et) (h1 : et ≤ 1) (hk : 0 < kT) :
    ∫ z, ‖svrE (E := E) et kT z‖ ^ 2 ∂((stdGaussian E).prod ((gaussianReal 0 1).prod (chiSq k)))
      = et * Module.finrank ℝ E + (1 - et) * (k + 1) := by
  have hae : ∀ᵐ z ∂((stdGaussian E).prod ((gaussianReal 0 1).prod (chiSq k))),
      ‖svrE (E := E) et kT z‖ ^ 2
        = et * ‖z.1‖ ^ 2 + (2 * (√et * √(1 - et))) * (‖z.1‖ * z.2.1)
          + (1 - et) * z.2.1 ^ 2 + (1 - et) * z.2.2 := by
    have a0 : ∀ᵐ x ∂(stdGaussian E), x ≠ 0 := by
      rw [ae_iff]
      simpa using stdGaussian_zero (E := E)
    have a1 : ∀ᵐ z ∂((stdGaussian E).prod ((gaussianReal 0 1).prod (chiSq k))), z.1 ≠ 0 :=
      Measure.quasiMeasurePreserving_fst.ae a0
    have a2 : ∀ᵐ z ∂((stdGaussian E).prod ((gaussianReal 0 1).prod (chiSq k))), 0 ≤ z.2.2 :=
      Measure.quasiMeasurePreserving_snd.ae (Measure.quasiMeasurePreserving_snd.ae
        (chiSq_nonneg k))
    filter_upwards [a1, a2] with z hz hg
    have h2 : 0 ≤ 1 - et := by linarith
    rw [svrE_norm h0 h1 hk hz hg, Real.sq_sqrt (by positivity), add_sq, mul_pow, mul_pow,
      Real.sq_sqrt h0, Real.sq_sqrt h2]
    ring
  rw [integral_congr_ae hae]
  have i1 : Integrable (fun z : E × ℝ × ℝ => et * ‖z.1‖ ^ 2)
      ((stdGaussian E).prod ((gaussianReal 0 1).prod (chiSq k))) :=
    (Integrable.comp_fst integrable_norm_sq _).const_mul et
  have i2 : Integrable (fun z : E × ℝ × ℝ => (2 * (√et * √(1 - et))) * (‖z.1‖ * z.2.1))
      ((stdGaussian E).prod ((gaussianReal 0 1).prod (chiSq k))) :=
    (Integrable.mul_prod integrable_norm (Integrable.comp_fst integrable_normal _)).const_mul _
  have i3 : Integrable (fun z : E × ℝ × ℝ => (1 - et) * z.2.1 ^ 2)
      ((stdGaussian E).prod ((gaussianReal 0 1).prod (chiSq k))) :=
    (Integrable.comp_snd (Integrable.comp_fst integrable_sq_normal _) _).const_mul _
  have i4 : Integrable (fun z : E × ℝ × ℝ => (1 - et) * z.2.2)
      ((stdGaussian E).prod ((gaussianReal 0 1).prod (chiSq k))) :=
    (Integrable.comp_snd (Integrable.comp_snd (integrable_chiSq k) _) _).const_mul _
  rw [integral_add (by exact (i1.add i2).add i3) i4, integral_add (by exact i1.add i2) i3,
    integral_add i1 i2]
  simp only [integral_const_mul]
  have e1 : ∫ z : E × ℝ × ℝ, ‖z.1‖ ^ 2 ∂((stdGaussian E).prod ((gaussianReal 0 1).prod (chiSq k)))
      = Module.finrank ℝ E := by
    rw [integral_fun_fst (fun x : E => ‖x‖ ^ 2), integral_norm_sq]; simp
  have e2 : ∫ z : E × ℝ × ℝ, ‖z.1‖ * z.2.1 ∂((stdGaussian E).prod ((gaussianReal 0 1).prod (chiSq k)))
      = 0 := by
    rw [integral_prod_mul (fun x : E => ‖x‖) (fun y : ℝ × ℝ => y.1), integral_fun_fst (fun x : ℝ => x)]
    simp
  have e3 : ∫ z : E × ℝ × ℝ, z.2.1 ^ 2 ∂((stdGaussian E).prod ((gaussianReal 0 1).prod (chiSq k)))
      = 1 := by
    rw [integral_fun_snd (fun y : ℝ × ℝ => y.1 ^ 2), integral_fun_fst (fun x : ℝ => x ^ 2),
      integral_sq_normal]
    simp
  have e4 : ∫ z : E × ℝ × ℝ, z.2.2 ∂((stdGaussian E).prod ((gaussianReal 0 1).prod (chiSq k)))
      = k := by
    rw [integral_fun_snd (fun y : ℝ × ℝ => y.2), integral_fun_snd (fun x : ℝ => x), integral_chiSq]
    simp
  rw [e1, e2, e3, e4]
  ring

end

section
variable {ι : Type} [Fintype ι]

theorem kinetic_scaledV {m : ι → ℝ} (hm : ∀ i, 0 < m i) {kT : ℝ} (hk : 0 < kT)
    (V : Submodule ℝ (EuclideanSpace ℝ ι)) (v : V) :
    kinetic m (fun i => √(kT * m i) * (v : EuclideanSpace ℝ ι) i) = kT / 2 * ‖v‖ ^ 2 := by
  rw [show ‖v‖ = ‖(v : EuclideanSpace ℝ ι)‖ from rfl, EuclideanSpace.real_norm_sq_eq]
  unfold kinetic
  rw [Finset.mul_sum]
  refine Finset.sum_congr rfl fun i _ => ?_
  have := hm i
  rw [mul_pow, Real.sq_sqrt (by positivity)]
  field_simp

theorem kinetic_measurable (m : ι → ℝ) : Measurable (kinetic m) := by
  unfold kinetic
  fun_prop

/-- The mean kinetic energy in the canonical distribution: `kT/2` per degree of freedom. -/
theorem canonical_mean {m : ι → ℝ} (hm : ∀ i, 0 < m i) {kT : ℝ} (hk : 0 < kT)
    (V : Submodule ℝ (EuclideanSpace ℝ ι)) :
    ∫ p, kinetic m p ∂(canonicalOn kT m V) = kT / 2 * Module.finrank ℝ V := by
  have hL : Measurable fun (v : V) (i : ι) => √(kT * m i) * (v : EuclideanSpace ℝ ι) i := by
    fun_prop
  unfold canonicalOn
  rw [integral_map hL.aemeasurable (kinetic_measurable m).aestronglyMeasurable]
  simp only [kinetic_scaledV hm hk]
  rw [integral_const_mul, integral_norm_sq]

/-- **C71.**  The mean kinetic energy after a step, for momenta with `finrank V` degrees of freedom in
equilibrium and a thermostat that believes there are `ndof = k + 1`. -/
theorem svr_mean {m : ι → ℝ} (hm : ∀ i, 0 < m i) {kb temp dt tau : ℝ} (hk : 0 < kb * temp)
    (hd : 0 ≤ dt) (htau : 0 < tau) (V : Submodule ℝ (EuclideanSpace ℝ ι)) [Nontrivial V] (k : ℕ)
    (e : ℝ) :
    ∫ z, kinetic m (svr m (expT dt tau) (svrK kb temp) z.2.1 z.2.2 ⟨z.1, e⟩).p
        ∂((canonicalOn (kb * temp) m V).prod ((gaussianReal 0 1).prod (chiSq k)))
      = kb * temp / 2 * (expT dt tau * Module.finrank ℝ V + (1 - expT dt tau) * (k + 1)) := by
  have hL : Measurable fun (v : V) (i : ι) => √(kb * temp * m i) * (v : EuclideanSpace ℝ ι) i := by
    fun_prop
  have hs := svr_measurable m (expT dt tau) (svrK kb temp) e
  have h1 := Measure.map_prod_map (stdGaussian V) ((gaussianReal 0 1).prod (chiSq k)) hL
    measurable_id
  rw [Measure.map_id] at h1
  unfold canonicalOn
  rw [h1, integral_map (f := fun z : (ι → ℝ) × ℝ × ℝ => kinetic m
    (svr m (expT dt tau) (svrK kb temp) z.2.1 z.2.2 ⟨z.1, e⟩).p) (by fun_prop)
    ((kinetic_measurable m).comp hs).aestronglyMeasurable]
  have h2 : ∀ z : V × ℝ × ℝ, kinetic m (svr m (expT dt tau) (svrK kb temp)
      (Prod.map (fun (v : V) (i : ι) => √(kb * temp * m i) * (v : EuclideanSpace ℝ ι) i) id z).2.1
      (Prod.map (fun (v : V) (i : ι) => √(kb * temp * m i) * (v : EuclideanSpace ℝ ι) i) id z).2.2
      ⟨(Prod.map (fun (v : V) (i : ι) => √(kb * temp * m i) * (v : EuclideanSpace ℝ ι) i) id z).1,
        e⟩).p = kb * temp / 2 * ‖svrE (expT dt tau) (kb * temp) z‖ ^ 2 := by
    intro z
    rw [← kinetic_scaledV hm hk V]
    exact congrArg (kinetic m) (svr_scaled hm hk (expT dt tau) z.2.1 z.2.2 e V z.1)
  rw [integral_congr_ae (Filter.Eventually.of_forall h2), integral_const_mul,
    svrE_mean k (expT_pos dt tau).le (expT_le hd htau) hk]

theorem expT_lt {dt tau : ℝ} (hd : 0 < dt) (ht : 0 < tau) : expT dt tau < 1 := by
  unfold expT
  rw [Real.exp_lt_one_iff]
  exact div_neg_of_neg_of_pos (by linarith) ht

/-- **C71.**  The canonical distribution is kept exactly when the thermostat knows the number of
degrees of freedom. -/
theorem svr_canonical_iff {m : ι → ℝ} (hm : ∀ i, 0 < m i) {kb temp dt tau : ℝ} (hk : 0 < kb * temp)
    (hd : 0 < dt) (htau : 0 < tau) (V : Submodule ℝ (EuclideanSpace ℝ ι)) [Nontrivial V] (k : ℕ)
    (e : ℝ) :
    ((canonicalOn (kb * temp) m V).prod ((gaussianReal 0 1).prod (chiSq k))).map
        (fun z => (svr m (expT dt tau) (svrK kb temp) z.2.1 z.2.2 ⟨z.1, e⟩).p)
      = canonicalOn (kb * temp) m V ↔ Module.finrank ℝ V = k + 1 := by
  refine ⟨fun h => ?_, fun h => svr_canonical_on hm hk hd.le htau V h e⟩
  have h1 := svr_mean hm hk hd.le htau V k e
  have h2 := canonical_mean hm hk V
  rw [← h, integral_map (svr_measurable m _ _ e).aemeasurable
    (kinetic_measurable m).aestronglyMeasurable, h1] at h2
  have h3 := expT_lt hd htau
  have h4 : (1 - expT dt tau) * ((Module.finrank ℝ V : ℝ) - (k + 1)) = 0 := by
    have h5 := mul_left_cancel₀ (by positivity : kb * temp / 2 ≠ 0) h2
    linear_combination -h5
  have h5 : (Module.finrank ℝ V : ℝ) = k + 1 := by
    rcases mul_eq_zero.1 h4 with h | h <;> linarith
  exact_mod_cast h5

end

end Verif.Thermo
