import Verif.Props.C47_Canonical

/-!
# C47: velocity rescaling keeps the canonical distribution

The momenta may be restricted to a subspace (fixed centre of mass, fixed atoms); the number of
degrees of freedom `ndof` the thermostat uses has to be its dimension.
-/

namespace Verif.Thermo

open MeasureTheory ProbabilityTheory Verif.Gauss
open scoped RealInnerProductSpace NNReal

theorem sumsq_measurable (k : ℕ) : Measurable fun r : Fin k → ℝ => ∑ i, r i ^ 2 := by fun_prop

/-- Specification: the distribution of the sum of the squares of `k` standard normal numbers.
`svrRg` draws from it as twice a gamma variate of half the order (plus one square for odd `k`). -/
noncomputable def chiSq (k : ℕ) : Measure ℝ := (normals (Fin k)).map fun r => ∑ i, r i ^ 2

noncomputable instance (k : ℕ) : IsProbabilityMeasure (chiSq k) :=
  Measure.isProbabilityMeasure_map (sumsq_measurable k).aemeasurable

/-- Specification: the canonical distribution on momenta whose mass scaled values are restricted to
the subspace `V`. -/
noncomputable def canonicalOn {ι : Type} [Fintype ι] (kT : ℝ) (m : ι → ℝ)
    (V : Submodule ℝ (EuclideanSpace ℝ ι)) : Measure (ι → ℝ) :=
  (stdGaussian V).map fun (v : V) i => √(kT * m i) * (v : EuclideanSpace ℝ ι) i

theorem chiSq_nonneg (k : ℕ) : ∀ᵐ x ∂(chiSq k), 0 ≤ x := by
  unfold chiSq
  rw [ae_map_iff (sumsq_measurable k).aemeasurable (by measurability)]
  exact Filter.Eventually.of_forall fun r => Finset.sum_nonneg fun i _ => sq_nonneg _

/-- One normal number and the sum of `k` squares, from `k + 1` normal numbers. -/
theorem normal_chiSq (k : ℕ) : (gaussianReal 0 1).prod (chiSq k)
    = (normals (Fin (k + 1))).map fun r => (r 0, ∑ i : Fin k, r i.succ ^ 2) := by
  have h := (measurePreserving_piFinSuccAbove (fun _ : Fin (k + 1) => gaussianReal 0 1) 0).map_eq
  have h2 := Measure.map_prod_map (gaussianReal 0 1) (normals (Fin k)) (f := id)
    (g := fun r => ∑ i, r i ^ 2) measurable_id (by fun_prop)
  rw [Measure.map_id] at h2
  unfold chiSq
  rw [h2]
  unfold normals at h2 ⊢
  rw [← h, Measure.map_map (by fun_prop) (MeasurableEquiv.measurable _)]
  rfl

section
variable {E : Type} [NormedAddCommGroup E] [InnerProductSpace ℝ E] [FiniteDimensional ℝ E]
  [MeasurableSpace E] [BorelSpace E]

/-- The rescaling in terms of vectors of unit variance. -/
noncomputable def svrE (et kT : ℝ) (z : E × ℝ × ℝ) : E :=
  svrAlpha et (kT * 0.5) (kT * ‖z.1‖ ^ 2 * 0.5) z.2.1 z.2.2 • z.1

theorem svrAlpha2_measurable (et Kb : ℝ) :
    Measurable fun z : ℝ × ℝ × ℝ => svrAlpha2 et Kb z.1 z.2.1 z.2.2 := by
  unfold svrAlpha2
  fun_prop

theorem svrAlpha_measurable (et Kb : ℝ) :
    Measurable fun z : ℝ × ℝ × ℝ => svrAlpha et Kb z.1 z.2.1 z.2.2 := by
  unfold svrAlpha
  refine Measurable.ite ?_ (svrAlpha2_measurable et Kb).sqrt.neg (svrAlpha2_measurable et Kb).sqrt
  unfold svrNeg
  by_cases h : et = 1 ∨ Kb = 0
  · simp [h]
  · simp only [h, if_false]
    have : MeasurableSet {z : ℝ × ℝ × ℝ | z.2.1 + √(2 * z.1 / Kb * et / (1 - et)) < 0} :=
      measurableSet_lt (by fun_prop) measurable_const
    convert this using 1
    ext z
    simp

theorem svrE_measurable (et kT : ℝ) : Measurable (svrE (E := E) et kT) := by
  unfold svrE
  refine Measurable.smul ?_ measurable_fst
  exact (svrAlpha_measurable et (kT * 0.5)).comp (f := fun z : E × ℝ × ℝ =>
    (kT * ‖z.1‖ ^ 2 * 0.5, z.2.1, z.2.2)) (by fun_prop)

omit [FiniteDimensional ℝ E] [MeasurableSpace E] [BorelSpace E] in
/-- The norm after the rescaling. -/
theorem svrE_norm {et kT : ℝ} (h0 : 0 ≤ et) (h1 : et ≤ 1) (hk : 0 < kT) {z : E × ℝ × ℝ}
    (hz : z.1 ≠ 0) (hg : 0 ≤ z.2.2) :
    ‖svrE et kT z‖ = √((√et * ‖z.1‖ + √(1 - et) * z.2.1) ^ 2 + (1 - et) * z.2.2) := by
  have hn : 0 < ‖z.1‖ := norm_pos_iff.2 hz
  have hq : kT * 0.5 / (kT * ‖z.1‖ ^ 2 * 0.5) = (‖z.1‖⁻¹) ^ 2 := by
    field_simp
  have hb : 0 ≤ kT * 0.5 / (kT * ‖z.1‖ ^ 2 * 0.5) := by rw [hq]; positivity
  have e1 := svrAlpha_sq h0 h1 hb z.2.1 hg
  have e2 := svrAlpha2_eq h0 h1 hb z.2.1 z.2.2
  rw [e2, hq, Real.sqrt_mul (by positivity), Real.sqrt_sq (by positivity)] at e1
  unfold svrE
  rw [norm_smul, Real.norm_eq_abs, ← Real.sqrt_sq_eq_abs, e1,
    ← Real.sqrt_sq hn.le, ← Real.sqrt_mul (by have : 0 ≤ 1 - et := by linarith
                                              positivity), Real.sqrt_sq hn.le]
  congr 1
  field_simp

omit [FiniteDimensional ℝ E] [MeasurableSpace E] [BorelSpace E] in
theorem svrE_iso (et kT : ℝ) (O : E ≃ₗᵢ[ℝ] E) (z : E × ℝ × ℝ) :
    svrE et kT (O z.1, z.2) = O (svrE et kT z) := by
  unfold svrE
  rw [map_smul, O.norm_map]

theorem svrE_law {k : ℕ} (hd : Module.finrank ℝ E = k + 1) {et kT : ℝ} (h0 : 0 ≤ et) (h1 : et ≤ 1)
    (hk : 0 < kT) :
    ((stdGaussian E).prod ((gaussianReal 0 1).prod (chiSq k))).map (svrE et kT) = stdGaussian E := by
  have hnt : Nontrivial E := Module.nontrivial_of_finrank_pos (R := ℝ) (by omega)
  have hprob := Measure.isProbabilityMeasure_map
    (μ := (stdGaussian E).prod ((gaussianReal 0 1).prod (chiSq k)))
    (svrE_measurable (E := E) et kT).aemeasurable
  refine radial_ext ?_ isoInv_stdGaussian ?_
  · refine isoInv_map (svrE_measurable et kT) (fun O z => (O z.1, z.2))
      (fun O => by have := iso_measurable O; fun_prop) (fun O => ?_) (fun O z => svrE_iso et kT O z)
    have h2 := Measure.map_prod_map (stdGaussian E) ((gaussianReal 0 1).prod (chiSq k))
      (iso_measurable O) measurable_id
    rw [Measure.map_id, isoInv_stdGaussian O] at h2
    exact h2.symm
  · -- the norm
    have b : OrthonormalBasis (Fin (k + 1)) ℝ E := (stdOrthonormalBasis ℝ E).reindex (finCongr hd)
    have hc : √et ^ 2 + √(1 - et) ^ 2 = 1 := by
      rw [Real.sq_sqrt h0, Real.sq_sqrt (by linarith)]; ring
    rw [← rotate_norm (e := b 0) (b.norm_eq_one 0) hc, Measure.map_map (by fun_prop)
      (svrE_measurable et kT)]
    have hae : ∀ᵐ z ∂((stdGaussian E).prod ((gaussianReal 0 1).prod (chiSq k))),
        ((fun x : E => ‖x‖) ∘ svrE et kT) z
          = √((√et * ‖z.1‖ + √(1 - et) * z.2.1) ^ 2 + (1 - et) * z.2.2) := by
      have a1 : ∀ᵐ z ∂((stdGaussian E).prod ((gaussianReal 0 1).prod (chiSq k))), z.1 ≠ 0 := by
        have : ∀ᵐ x ∂(stdGaussian E), x ≠ 0 := by
          rw [ae_iff]
          simpa using stdGaussian_zero (E := E)
        exact Measure.quasiMeasurePreserving_fst.ae this
      have a2 : ∀ᵐ z ∂((stdGaussian E).prod ((gaussianReal 0 1).prod (chiSq k))), 0 ≤ z.2.2 :=
        Measure.quasiMeasurePreserving_snd.ae (Measure.quasiMeasurePreserving_snd.ae
          (chiSq_nonneg k))
      filter_upwards [a1, a2] with z hz hg
      exact svrE_norm h0 h1 hk hz hg
    rw [Measure.map_congr hae, normal_chiSq]
    have h3 := Measure.map_prod_map (stdGaussian E) (normals (Fin (k + 1))) (f := id)
      (g := fun r => (r 0, ∑ i : Fin k, r i.succ ^ 2)) measurable_id (by fun_prop)
    have h4 := Measure.map_prod_map (stdGaussian E) (normals (Fin (k + 1))) (f := id)
      (g := fun r => ∑ i, r i • b i) measurable_id (by fun_prop)
    have hb := stdGaussian_eq_map_pi_orthonormalBasis b
    rw [Measure.map_id] at h3 h4
    have h5 : (stdGaussian E).prod (stdGaussian E) = (stdGaussian E).prod
        ((normals (Fin (k + 1))).map fun r => ∑ i, r i • b i) := congrArg _ hb
    rw [h5, h3, h4, Measure.map_map (by fun_prop) (by fun_prop),
      Measure.map_map (by fun_prop) (by fun_prop)]
    congr 1
    funext z
    simp only [Function.comp, Prod.map, id]
    have hn : ‖(√et * ‖z.1‖) • b 0 + √(1 - et) • ∑ i, z.2 i • b i‖ ^ 2
        = (√et * ‖z.1‖ + √(1 - et) * z.2 0) ^ 2 + (1 - et) * ∑ i : Fin k, z.2 i.succ ^ 2 := by
      rw [← b.sum_sq_norm_inner_right, Fin.sum_univ_succ]
      have hi : ∀ i, ⟪b i, (√et * ‖z.1‖) • b 0 + √(1 - et) • ∑ i, z.2 i • b i⟫
          = (if i = 0 then √et * ‖z.1‖ else 0) + √(1 - et) * z.2 i := by
        intro i
        rw [inner_add_right, inner_smul_right, inner_smul_right, b.orthonormal.inner_right_fintype,
          orthonormal_iff_ite.1 b.orthonormal]
        simp
      simp only [hi, Real.norm_eq_abs, sq_abs, if_true, Fin.succ_ne_zero, if_false, zero_add,
        mul_pow, Real.sq_sqrt (show 0 ≤ 1 - et by linarith), Finset.mul_sum]
    rw [← hn, Real.sqrt_sq (norm_nonneg _)]

end

section
variable {ι : Type} [Fintype ι]

/-- What the thermostat does to the momenta, in vectors of unit variance. -/
theorem svr_scaled {m : ι → ℝ} (hm : ∀ i, 0 < m i) {kb temp : ℝ} (hk : 0 < kb * temp) (et r1 rg e : ℝ)
    (V : Submodule ℝ (EuclideanSpace ℝ ι)) (v : V) :
    (svr m et (svrK kb temp) r1 rg ⟨fun i => √(kb * temp * m i) * (v : EuclideanSpace ℝ ι) i, e⟩).p
      = fun i => √(kb * temp * m i)
          * ((svrE et (kb * temp) (v, r1, rg) : V) : EuclideanSpace ℝ ι) i := by
  have hK : kinE m (fun i => √(kb * temp * m i) * (v : EuclideanSpace ℝ ι) i)
      = kb * temp * ‖v‖ ^ 2 * 0.5 := by
    rw [kinE_eq, show ‖v‖ = ‖(v : EuclideanSpace ℝ ι)‖ from rfl, EuclideanSpace.real_norm_sq_eq]
    unfold kinetic
    rw [Finset.mul_sum, Finset.sum_mul]
    refine Finset.sum_congr rfl fun i _ => ?_
    have := hm i
    rw [mul_pow, Real.sq_sqrt (by positivity)]
    field_simp
    ring
  unfold svr
  simp only [hK]
  funext i
  by_cases h : kb * temp * ‖v‖ ^ 2 * 0.5 = 0
  · have hv : v = 0 := by
      have h2 : (0.5 : ℝ) ≠ 0 := by norm_num
      simpa [hk.ne', h2] using h
    subst hv
    simp [svrE]
  · rw [if_neg h]
    simp only [svrE, svrK, Submodule.coe_smul, PiLp.smul_apply, smul_eq_mul]
    ring

theorem svr_measurable (m : ι → ℝ) (et Kb e : ℝ) :
    Measurable fun z : (ι → ℝ) × ℝ × ℝ => (svr m et Kb z.2.1 z.2.2 ⟨z.1, e⟩).p := by
  have hK : Measurable fun z : (ι → ℝ) × ℝ × ℝ => kinE m z.1 := by
    unfold kinE dot
    fun_prop
  have hA : Measurable fun z : (ι → ℝ) × ℝ × ℝ => svrAlpha et Kb (kinE m z.1) z.2.1 z.2.2 :=
    (svrAlpha_measurable et Kb).comp (f := fun z : (ι → ℝ) × ℝ × ℝ => (kinE m z.1, z.2.1, z.2.2))
      (by fun_prop)
  have : (fun z : (ι → ℝ) × ℝ × ℝ => (svr m et Kb z.2.1 z.2.2 ⟨z.1, e⟩).p)
      = fun z => open scoped Classical in if kinE m z.1 = 0 then z.1
          else fun i => z.1 i * svrAlpha et Kb (kinE m z.1) z.2.1 z.2.2 := by
    funext z
    unfold svr
    simp only
    split <;> rfl
  rw [this]
  refine Measurable.ite (hK (measurableSet_singleton 0)) (by fun_prop) ?_
  rw [measurable_pi_iff]
  intro i
  exact Measurable.mul (by fun_prop) hA

/-- **C47 (velocity rescaling).**  For momenta in a subspace of dimension `ndof = k + 1` the canonical
distribution is invariant, if `rg` is distributed as a sum of `ndof - 1` squares. -/
theorem svr_canonical_on {m : ι → ℝ} (hm : ∀ i, 0 < m i) {kb temp dt tau : ℝ}
    (hk : 0 < kb * temp) (hd : 0 ≤ dt) (htau : 0 < tau) (V : Submodule ℝ (EuclideanSpace ℝ ι))
    {k : ℕ} (hV : Module.finrank ℝ V = k + 1) (e : ℝ) :
    ((canonicalOn (kb * temp) m V).prod ((gaussianReal 0 1).prod (chiSq k))).map
        (fun z => (svr m (expT dt tau) (svrK kb temp) z.2.1 z.2.2 ⟨z.1, e⟩).p)
      = canonicalOn (kb * temp) m V := by
  have hL : Measurable fun (v : V) (i : ι) => √(kb * temp * m i) * (v : EuclideanSpace ℝ ι) i := by
    fun_prop
  have hs := svr_measurable m (expT dt tau) (svrK kb temp) e
  have h1 := Measure.map_prod_map (stdGaussian V) ((gaussianReal 0 1).prod (chiSq k)) hL
    measurable_id
  rw [Measure.map_id] at h1
  unfold canonicalOn
  rw [h1, Measure.map_map hs (by fun_prop)]
  conv_rhs => rw [← svrE_law hV (expT_pos dt tau).le (expT_le hd htau) hk]
  rw [Measure.map_map hL (svrE_measurable _ _)]
  congr 1
  funext z
  exact svr_scaled hm hk (expT dt tau) z.2.1 z.2.2 e V z.1

/-- Without constraints `canonicalOn` is the canonical distribution. -/
theorem canonicalOn_top {m : ι → ℝ} (hm : ∀ i, 0 < m i) {kT : ℝ} (hk : 0 ≤ kT) :
    canonicalOn kT m ⊤ = canonical kT m := by
  unfold canonicalOn canonical
  have h1 := stdGaussian_map (LinearIsometryEquiv.ofTop (EuclideanSpace ℝ ι) (R := ℝ) ⊤ rfl)
  have h2 : (stdGaussian (⊤ : Submodule ℝ (EuclideanSpace ℝ ι))).map
      (fun (v : (⊤ : Submodule ℝ (EuclideanSpace ℝ ι))) i =>
        √(kT * m i) * (v : EuclideanSpace ℝ ι) i)
      = (stdGaussian (EuclideanSpace ℝ ι)).map (fun v i => √(kT * m i) * v i) := by
    rw [← h1, Measure.map_map (by fun_prop) (LinearIsometryEquiv.continuous _).measurable]
    rfl
  rw [h2, ← map_pi_eq_stdGaussian, Measure.map_map (by fun_prop) (by fun_prop)]
  have h3 := Measure.pi_map_pi (μ := fun _ : ι => gaussianReal 0 1)
    (f := fun i x => √(kT * m i) * x) (fun i => by fun_prop)
  have h4 : ((fun (v : EuclideanSpace ℝ ι) (i : ι) => √(kT * m i) * v i) ∘ WithLp.toLp 2)
      = fun x i => √(kT * m i) * x i := rfl
  rw [h4, h3]
  congr 1
  funext i
  rw [gaussianReal_map_const_mul]
  congr 1
  · simp
  · ext
    have := hm i
    simp [Real.sq_sqrt, mul_nonneg hk this.le]

/-- **C47 (velocity rescaling), no constraints.** -/
theorem svr_canonical {n : ℕ} {m : Fin (n + 1) → ℝ} (hm : ∀ i, 0 < m i) {kb temp dt tau : ℝ}
    (hk : 0 < kb * temp) (hd : 0 ≤ dt) (htau : 0 < tau) (e : ℝ) :
    ((canonical (kb * temp) m).prod ((gaussianReal 0 1).prod (chiSq n))).map
        (fun z => (svr m (expT dt tau) (svrK kb temp) z.2.1 z.2.2 ⟨z.1, e⟩).p)
      = canonical (kb * temp) m := by
  rw [← canonicalOn_top hm hk.le]
  exact svr_canonical_on hm hk hd htau ⊤ (by simp) e

end

end Verif.Thermo
