import Verif.Props.C100_CentroidVirial
import Mathlib.LinearAlgebra.Matrix.SchurComplement
import Mathlib.MeasureTheory.Measure.Lebesgue.EqHaar

/-!
# C101: the isotope estimators average to ratios of partition functions

Specification: the partition function of ring polymers with masses `m` is the integral of `boltz`.
Substituting atom `a` by an isotope multiplies its mass by `alpha`.
-/

namespace Verif.Estim

open Finset MeasureTheory

section
variable {n N : ℕ} {kB T omegan2 : ℝ} {m : Fin N → ℝ} {V : Conf n N → ℝ} {f : Conf n N → Conf n N}

/-! ### Scaling the paths about their centroids -/

/-- The path of every atom scaled about its centroid by a factor of its own. -/
noncomputable def scaleBy (w : Fin N → ℝ) (q : Conf n N) : Conf n N := fun x =>
  qc q x.2.1 x.2.2 * (1 - w x.2.1) + w x.2.1 * q x

/-- The matrix of `scaleBy`. -/
noncomputable def scaleMat (n : ℕ) (w : Fin N → ℝ) :
    Matrix (Fin (n + 1) × (Fin N × Fin 3)) (Fin (n + 1) × (Fin N × Fin 3)) ℝ :=
  Matrix.blockDiagonal fun k : Fin N × Fin 3 =>
    w k.1 • (1 : Matrix (Fin (n + 1)) (Fin (n + 1)) ℝ)
      + ((1 - w k.1) / ((n + 1 : ℕ) : ℝ)) • Matrix.of fun _ _ => 1

theorem scaleMat_apply (w : Fin N → ℝ) (q : Conf n N) : Matrix.toLin' (scaleMat n w) q = scaleBy w q := by
  ext ⟨b, a, d⟩
  rw [Matrix.toLin'_apply]
  simp only [scaleMat, Matrix.mulVec, dotProduct, scaleBy, qc]
  rw [Fintype.sum_prod_type]
  simp only [Matrix.blockDiagonal_apply, ite_mul, zero_mul, Finset.sum_ite_eq, Finset.mem_univ, if_true,
    Matrix.add_apply, Matrix.smul_apply, Matrix.one_apply, Matrix.of_apply, smul_eq_mul, mul_one,
    add_mul, mul_ite, mul_zero, Finset.sum_add_distrib, ite_mul, zero_mul, Finset.sum_ite_eq]
  rw [← Finset.mul_sum]
  ring

theorem det_block {w : ℝ} (hw : w ≠ 0) :
    (w • (1 : Matrix (Fin (n + 1)) (Fin (n + 1)) ℝ)
      + ((1 - w) / ((n + 1 : ℕ) : ℝ)) • Matrix.of fun _ _ => (1 : ℝ)).det = w ^ n := by
  have hP : ((n + 1 : ℕ) : ℝ) ≠ 0 := by positivity
  have e : w • (1 : Matrix (Fin (n + 1)) (Fin (n + 1)) ℝ)
      + ((1 - w) / ((n + 1 : ℕ) : ℝ)) • Matrix.of (fun _ _ => (1 : ℝ))
      = w • (1 + Matrix.replicateCol Unit (fun _ => (1 - w) / ((n + 1 : ℕ) : ℝ) / w)
        * Matrix.replicateRow Unit (fun _ => (1 : ℝ))) := by
    ext i j
    simp only [Matrix.add_apply, Matrix.smul_apply, Matrix.one_apply, Matrix.of_apply, smul_eq_mul,
      Matrix.mul_apply, Matrix.replicateCol_apply, Matrix.replicateRow_apply, Finset.univ_unique,
      Finset.sum_const, Finset.card_singleton, one_smul]
    split <;> field_simp
  rw [e, Matrix.det_smul, Matrix.det_one_add_replicateCol_mul_replicateRow]
  simp only [dotProduct, one_mul, Finset.sum_const, Finset.card_univ, Fintype.card_fin, nsmul_eq_mul]
  rw [pow_succ]
  field_simp
  ring

theorem det_scale {w : Fin N → ℝ} (hw : ∀ a, w a ≠ 0) :
    LinearMap.det (Matrix.toLin' (scaleMat n w)) = ∏ a, w a ^ (3 * n) := by
  rw [LinearMap.det_toLin', scaleMat, Matrix.det_blockDiagonal, Fintype.prod_prod_type]
  refine Finset.prod_congr rfl fun a _ => ?_
  rw [Finset.prod_congr rfl fun d _ => det_block (hw a)]
  simp [← pow_mul, mul_comm]

/-- Changing the variables of an integral over all configurations. -/
theorem integral_scale {w : Fin N → ℝ} (hw : ∀ a, 0 < w a) (G : Conf n N → ℝ) :
    (∏ a, w a ^ (3 * n)) * ∫ q, G (scaleBy w q) = ∫ q, G q := by
  have hd := det_scale (n := n) fun a => (hw a).ne'
  have hpos : 0 < ∏ a, w a ^ (3 * n) := Finset.prod_pos fun a _ => pow_pos (hw a) _
  have hne : LinearMap.det (Matrix.toLin' (scaleMat n w)) ≠ 0 := by rw [hd]; exact hpos.ne'
  set g := ((Matrix.toLin' (scaleMat n w)).equivOfDetNeZero hne).toContinuousLinearEquiv.toHomeomorph
    with hg
  have hgq : ∀ q, g q = scaleBy w q := fun q => scaleMat_apply w q
  have h1 := Measure.map_linearMap_addHaar_eq_smul_addHaar (volume : Measure (Conf n N)) hne
  have h2 : ⇑(Matrix.toLin' (scaleMat n w)) = g := rfl
  rw [h2, hd] at h1
  have h3 := g.measurableEmbedding.integral_map (μ := volume) G
  rw [h1, integral_smul_measure] at h3
  simp only [hgq] at h3
  rw [← h3, abs_of_pos (inv_pos.2 hpos), ENNReal.toReal_ofReal (inv_pos.2 hpos).le, smul_eq_mul,
    mul_inv_cancel_left₀ hpos.ne']

theorem integrable_scale {w : Fin N → ℝ} (hw : ∀ a, 0 < w a) {G : Conf n N → ℝ} (hG : Integrable G) :
    Integrable fun q => G (scaleBy w q) := by
  have hd := det_scale (n := n) fun a => (hw a).ne'
  have hpos : 0 < ∏ a, w a ^ (3 * n) := Finset.prod_pos fun a _ => pow_pos (hw a) _
  have hne : LinearMap.det (Matrix.toLin' (scaleMat n w)) ≠ 0 := by rw [hd]; exact hpos.ne'
  set g := ((Matrix.toLin' (scaleMat n w)).equivOfDetNeZero hne).toContinuousLinearEquiv.toHomeomorph
    with hg
  have hgq : ∀ q, g q = scaleBy w q := fun q => scaleMat_apply w q
  have h1 := Measure.map_linearMap_addHaar_eq_smul_addHaar (volume : Measure (Conf n N)) hne
  have h2 : ⇑(Matrix.toLin' (scaleMat n w)) = g := rfl
  rw [h2, hd] at h1
  have h3 := g.measurableEmbedding.integrable_map_iff (μ := volume) (g := G)
  have h4 : Integrable G (Measure.map g volume) := by
    rw [h1]
    exact hG.smul_measure ENNReal.ofReal_ne_top
  have := h3.1 h4
  simpa [Function.comp_def, hgq] using this

theorem springs_scale (w : Fin N → ℝ) (q : Conf n N) (a : Fin N) :
    springs (scaleBy w q) a = w a ^ 2 * springs q a := by
  rw [springs_cyc, springs_cyc, Finset.mul_sum]
  refine Finset.sum_congr rfl fun d _ => ?_
  rw [Finset.mul_sum]
  refine Finset.sum_congr rfl fun b _ => ?_
  simp only [scaleBy]
  ring

theorem scaledAtom_eq (q : Conf n N) (i : Fin N) (s : ℝ) :
    scaledAtom q i s = scaleBy (Function.update 1 i s) q := by
  ext ⟨b, a, d⟩
  simp only [scaledAtom, scaleBy]
  by_cases h : a = i
  · subst h
    simp
  · simp [h]

/-! ### Isotope substitution -/

/-- Specification: the masses after substituting atom `a`. -/
noncomputable def isotope (m : Fin N → ℝ) (alpha : ℝ) (a : Fin N) : Fin N → ℝ :=
  Function.update m a (alpha * m a)

theorem boltz_eq (q : Conf n N) : boltz kB T omegan2 m V q
    = Real.exp (-(V q + ∑ a, 1 / 2 * m a * omegan2 * springs q a) / (kB * T * ((n + 1 : ℕ) : ℝ))) := by
  unfold boltz
  simp only [springs_cyc, Finset.mul_sum]

theorem sum_isotope (alpha : ℝ) (a : Fin N) (g : Fin N → ℝ) :
    ∑ c, 1 / 2 * isotope m alpha a c * omegan2 * g c
      = (∑ c, 1 / 2 * m c * omegan2 * g c) + g a * (0.5 * (alpha - 1) * m a * omegan2) := by
  rw [← Finset.add_sum_erase univ (fun c => 1 / 2 * isotope m alpha a c * omegan2 * g c)
      (Finset.mem_univ a),
    ← Finset.add_sum_erase univ (fun c => 1 / 2 * m c * omegan2 * g c) (Finset.mem_univ a)]
  have : ∑ c ∈ univ.erase a, 1 / 2 * isotope m alpha a c * omegan2 * g c
      = ∑ c ∈ univ.erase a, 1 / 2 * m c * omegan2 * g c := by
    refine Finset.sum_congr rfl fun c hc => ?_
    rw [isotope, Function.update_of_ne (Finset.ne_of_mem_erase hc)]
  rw [this, isotope, Function.update_self]
  rw [show (0.5 : ℝ) = 1 / 2 by norm_num]
  ring

/-- The exponential of the excess spring energy turns the distribution into that of the isotope. -/
theorem boltz_td (alpha : ℝ) (a : Fin N) (V : Conf n N → ℝ) (q : Conf n N) :
    Real.exp (-(1 / (kB * T * ((n + 1 : ℕ) : ℝ))) * (springs q a * (0.5 * (alpha - 1) * m a * omegan2)))
      * boltz kB T omegan2 m V q = boltz kB T omegan2 (isotope m alpha a) V q := by
  rw [boltz_eq, boltz_eq, ← Real.exp_add, sum_isotope]
  congr 1
  ring

/-- The exponential of the excess potential of the scaled path turns the distribution into that of
the isotope at the scaled path. -/
theorem boltz_sc {alpha : ℝ} (ha : 0 < alpha) (a : Fin N) (V V' : Conf n N → ℝ) (q : Conf n N) :
    Real.exp (-(1 / (kB * T * ((n + 1 : ℕ) : ℝ))) * (V' (scaledAtom q a (1 / √alpha)) - V q))
      * boltz kB T omegan2 m V q
      = boltz kB T omegan2 (isotope m alpha a) V' (scaleBy (Function.update 1 a (1 / √alpha)) q) := by
  rw [boltz_eq, boltz_eq, ← Real.exp_add, scaledAtom_eq]
  have h : ∑ c, 1 / 2 * isotope m alpha a c * omegan2
        * springs (scaleBy (Function.update 1 a (1 / √alpha)) q) c
      = ∑ c, 1 / 2 * m c * omegan2 * springs q c := by
    refine Finset.sum_congr rfl fun c _ => ?_
    rw [springs_scale, isotope]
    by_cases hc : c = a
    · subst hc
      rw [Function.update_self, Function.update_self, div_pow, Real.sq_sqrt ha.le]
      field_simp
    · rw [Function.update_of_ne hc, Function.update_of_ne hc]
      simp
  rw [h]
  congr 1
  ring

theorem free_factor {alpha : ℝ} (ha : 0 < alpha) (a : Fin N) :
    ∏ c, (Function.update (1 : Fin N → ℝ) a (1 / √alpha)) c ^ (3 * n)
      = (alpha ^ ((1.5 : ℝ) * (((n + 1 : ℕ) : ℝ) - 1)))⁻¹ := by
  rw [← Finset.mul_prod_erase _ _ (Finset.mem_univ a)]
  have : ∏ c ∈ univ.erase a, (Function.update (1 : Fin N → ℝ) a (1 / √alpha)) c ^ (3 * n) = 1 := by
    refine Finset.prod_eq_one fun c hc => ?_
    rw [Function.update_of_ne (Finset.ne_of_mem_erase hc)]
    simp
  rw [this, Function.update_self, mul_one, div_pow, one_pow, one_div, Real.sqrt_eq_rpow,
    ← Real.rpow_natCast, ← Real.rpow_mul ha.le]
  congr 2
  push_cast
  ring

theorem update_pos {alpha : ℝ} (ha : 0 < alpha) (a c : Fin N) :
    0 < (Function.update (1 : Fin N → ℝ) a (1 / √alpha)) c := by
  by_cases hc : c = a
  · subst hc
    rw [Function.update_self]
    positivity
  · rw [Function.update_of_ne hc]
    simp

/-- Averages over the isotope from scaled paths. -/
theorem integral_sc {alpha : ℝ} (ha : 0 < alpha) (a : Fin N) (V V' : Conf n N → ℝ) (g : Conf n N → ℝ) :
    ∫ q, g (scaledAtom q a (1 / √alpha))
        * (Real.exp (-(1 / (kB * T * ((n + 1 : ℕ) : ℝ))) * (V' (scaledAtom q a (1 / √alpha)) - V q))
          * boltz kB T omegan2 m V q)
      = alpha ^ ((1.5 : ℝ) * (((n + 1 : ℕ) : ℝ) - 1))
        * ∫ q, g q * boltz kB T omegan2 (isotope m alpha a) V' q := by
  simp only [boltz_sc ha]
  simp only [scaledAtom_eq]
  have h := integral_scale (n := n) (update_pos ha a)
    fun q => g q * boltz kB T omegan2 (isotope m alpha a) V' q
  rw [free_factor ha] at h
  have hp : 0 < alpha ^ ((1.5 : ℝ) * (((n + 1 : ℕ) : ℝ) - 1)) := Real.rpow_pos_of_pos ha _
  rw [← h, mul_inv_cancel_left₀ hp.ne']

theorem integrable_sc {alpha : ℝ} (ha : 0 < alpha) (a : Fin N) (V V' : Conf n N → ℝ) (g : Conf n N → ℝ)
    (hi : Integrable fun q => g q * boltz kB T omegan2 (isotope m alpha a) V' q) :
    Integrable fun q => g (scaledAtom q a (1 / √alpha))
        * (Real.exp (-(1 / (kB * T * ((n + 1 : ℕ) : ℝ))) * (V' (scaledAtom q a (1 / √alpha)) - V q))
          * boltz kB T omegan2 m V q) := by
  simp only [boltz_sc ha]
  simp only [scaledAtom_eq]
  exact integrable_scale (update_pos ha a) hi

/-- Specification: the ratio of partition functions of the isotope and the atom, without the factor
of the free centroid, averaged over the atoms `A`; `V` may depend on the masses. -/
noncomputable def isoRatio (kB T omegan2 : ℝ) (m : Fin N → ℝ) (alpha : ℝ) (A : Finset (Fin N))
    (V : (Fin N → ℝ) → Conf n N → ℝ) : ℝ :=
  (∑ a ∈ A, alpha ^ ((3 : ℝ) / 2 * n)
      * ((∫ q, boltz kB T omegan2 (isotope m alpha a) (V (isotope m alpha a)) q)
        / ∫ q, boltz kB T omegan2 m (V m) q))
    / A.card

theorem free_eq (alpha : ℝ) : alpha ^ ((1.5 : ℝ) * (((n + 1 : ℕ) : ℝ) - 1)) = alpha ^ ((3 : ℝ) / 2 * n) := by
  congr 1
  push_cast
  ring

/-- Averaging a sum over atoms of terms that turn the distribution into that of the isotope. -/
theorem td_average {alpha : ℝ} (A : Finset (Fin N)) (V : (Fin N → ℝ) → Conf n N → ℝ)
    (hI : ∀ a ∈ A, Integrable (boltz kB T omegan2 (isotope m alpha a) (V (isotope m alpha a))))
    (W : Conf n N → ℝ) (e : Fin N → Conf n N → ℝ) (he : ∀ a q, e a q * W q
      = boltz kB T omegan2 (isotope m alpha a) (V (isotope m alpha a)) q) :
    Integrable (fun q => (∑ a ∈ A, e a q) / (A.card : ℝ) * alpha ^ ((1.5 : ℝ) * (((n + 1 : ℕ) : ℝ) - 1)) * W q) ∧
    (∫ q, (∑ a ∈ A, e a q) / (A.card : ℝ) * alpha ^ ((1.5 : ℝ) * (((n + 1 : ℕ) : ℝ) - 1)) * W q)
      / ∫ q, boltz kB T omegan2 m (V m) q = isoRatio kB T omegan2 m alpha A V := by
  rw [free_eq]
  have e1 : ∀ q, (∑ a ∈ A, e a q) / (A.card : ℝ) * alpha ^ ((3 : ℝ) / 2 * n) * W q
      = (alpha ^ ((3 : ℝ) / 2 * n) / A.card) * ∑ a ∈ A,
        boltz kB T omegan2 (isotope m alpha a) (V (isotope m alpha a)) q := by
    intro q
    simp only [← he]
    rw [← Finset.sum_mul]
    ring
  simp only [e1]
  refine ⟨(integrable_finsetSum _ hI).const_mul _, ?_⟩
  rw [integral_const_mul, integral_finsetSum _ hI, isoRatio, ← Finset.mul_sum, ← Finset.sum_div]
  ring

theorem sc_average {alpha : ℝ} (ha : 0 < alpha) (A : Finset (Fin N)) (V : (Fin N → ℝ) → Conf n N → ℝ)
    (hI : ∀ a ∈ A, Integrable (boltz kB T omegan2 (isotope m alpha a) (V (isotope m alpha a))))
    (W : Conf n N → ℝ) (e : Fin N → Conf n N → ℝ) (he : ∀ a q, e a q * W q
      = Real.exp (-(1 / (kB * T * ((n + 1 : ℕ) : ℝ)))
          * (V (isotope m alpha a) (scaledAtom q a (1 / √alpha)) - V m q))
        * boltz kB T omegan2 m (V m) q) :
    Integrable (fun q => (∑ a ∈ A, e a q) / (A.card : ℝ) * W q) ∧
    (∫ q, (∑ a ∈ A, e a q) / (A.card : ℝ) * W q)
      / ∫ q, boltz kB T omegan2 m (V m) q = isoRatio kB T omegan2 m alpha A V := by
  have hi : ∀ a ∈ A, Integrable fun q => e a q * W q := by
    intro a hA
    have := integrable_sc ha a (V m) (V (isotope m alpha a)) (fun _ => 1) (by simpa using hI a hA)
    simpa [he] using this
  have e1 : ∀ q, (∑ a ∈ A, e a q) / (A.card : ℝ) * W q = (1 / (A.card : ℝ)) * ∑ a ∈ A, e a q * W q := by
    intro q
    rw [← Finset.sum_mul]
    ring
  simp only [e1]
  refine ⟨(integrable_finsetSum _ hi).const_mul _, ?_⟩
  rw [integral_const_mul, integral_finsetSum _ hi, isoRatio, ← Finset.mul_sum, ← Finset.sum_div]
  have h2 : ∀ a, ∫ q, e a q * W q = alpha ^ ((3 : ℝ) / 2 * n)
      * ∫ q, boltz kB T omegan2 (isotope m alpha a) (V (isotope m alpha a)) q := by
    intro a
    have := integral_sc (kB := kB) (T := T) (omegan2 := omegan2) (m := m) ha a (V m)
      (V (isotope m alpha a)) (fun _ => 1)
    rw [free_eq] at this
    simpa [he] using this
  simp only [h2, ← Finset.mul_sum]
  ring

theorem zetatd_ok (alpha : ℝ) (names : Fin N → String) (s : Sel) (hs : s.check N = .ok ())
    (hne : (s.atoms names).Nonempty) (q : Conf n N) :
    ∃ u v, zetatd kB T omegan2 m names alpha s q = .ok (u, v,
      (∑ a ∈ s.atoms names, Real.exp (-(1 / (kB * T * ((n + 1 : ℕ) : ℝ)))
        * (springs q a * (0.5 * (alpha - 1) * m a * omegan2)))) / ((s.atoms names).card : ℝ)
      * alpha ^ ((1.5 : ℝ) * (((n + 1 : ℕ) : ℝ) - 1))) := by
  have hc : (s.atoms names).card ≠ 0 := Finset.card_ne_zero.2 hne
  unfold zetatd
  rw [hs]
  simp only [bind, Except.bind, if_neg hc, pure, Except.pure]
  exact ⟨_, _, rfl⟩

theorem zetasc_ok (alpha : ℝ) (names : Fin N → String) (s : Sel) (hs : s.check N = .ok ())
    (hne : (s.atoms names).Nonempty) (V V' : Conf n N → ℝ) (q : Conf n N) :
    ∃ u v, zetasc kB T names alpha s V V' q = .ok (u, v,
      (∑ a ∈ s.atoms names, Real.exp (-(1 / (kB * T * ((n + 1 : ℕ) : ℝ)))
        * (V' (scaledAtom q a (1 / √alpha)) - V q))) / ((s.atoms names).card : ℝ)) := by
  have hc : (s.atoms names).card ≠ 0 := Finset.card_ne_zero.2 hne
  unfold zetasc
  rw [hs]
  simp only [bind, Except.bind, if_neg hc, pure, Except.pure]
  exact ⟨_, _, rfl⟩

/-- **The thermodynamic isotope estimator averages to the ratio of partition functions.** -/
theorem zetatd_mean (alpha : ℝ) (names : Fin N → String) (s : Sel) (hs : s.check N = .ok ())
    (hne : (s.atoms names).Nonempty)
    (hI : ∀ a ∈ s.atoms names, Integrable (boltz kB T omegan2 (isotope m alpha a) V)) :
    ∃ x : Conf n N → ℝ, (∀ q, ∃ u v, zetatd kB T omegan2 m names alpha s q = .ok (u, v, x q)) ∧
      Integrable (fun q => x q * boltz kB T omegan2 m V q) ∧
      (∫ q, x q * boltz kB T omegan2 m V q) / ∫ q, boltz kB T omegan2 m V q
        = isoRatio kB T omegan2 m alpha (s.atoms names) fun _ => V :=
  ⟨_, zetatd_ok alpha names s hs hne, td_average (s.atoms names) (fun _ => V) hI
    (boltz kB T omegan2 m V) _ fun a q => boltz_td alpha a V q⟩

/-- **The scaled-coordinates isotope estimator averages to the same ratio.** -/
theorem zetasc_mean {alpha : ℝ} (ha : 0 < alpha) (names : Fin N → String) (s : Sel)
    (hs : s.check N = .ok ()) (hne : (s.atoms names).Nonempty)
    (hI : ∀ a ∈ s.atoms names, Integrable (boltz kB T omegan2 (isotope m alpha a) V)) :
    ∃ x : Conf n N → ℝ, (∀ q, ∃ u v, zetasc kB T names alpha s V V q = .ok (u, v, x q)) ∧
      Integrable (fun q => x q * boltz kB T omegan2 m V q) ∧
      (∫ q, x q * boltz kB T omegan2 m V q) / ∫ q, boltz kB T omegan2 m V q
        = isoRatio kB T omegan2 m alpha (s.atoms names) fun _ => V :=
  ⟨_, zetasc_ok alpha names s hs hne V V, sc_average ha (s.atoms names) (fun _ => V) hI
    (boltz kB T omegan2 m V) _ fun a q => rfl⟩

/-- A water-like system in a harmonic trap, and the substitution of its hydrogen atoms: the two
estimators have the same average. -/
example : ∃ x y : Conf 3 3 → ℝ,
    (∀ q, ∃ u v, zetatd 1 1 4 ![16, 1, 1] ![ "O", "H", "H"] 2 (.label "H") q = .ok (u, v, x q)) ∧
    (∀ q, ∃ u v, zetasc 1 1 ![ "O", "H", "H"] 2 (.label "H") (fun q => ∑ x, 1 / 2 * q x ^ 2)
      (fun q => ∑ x, 1 / 2 * q x ^ 2) q = .ok (u, v, y q)) ∧
    ∫ q, x q * boltz 1 1 4 ![16, 1, 1] (fun q => ∑ x, 1 / 2 * q x ^ 2) q
      = ∫ q, y q * boltz 1 1 4 ![16, 1, 1] (fun q => ∑ x, 1 / 2 * q x ^ 2) q := by
  have hm : ∀ a, 0 ≤ (![16, 1, 1] : Fin 3 → ℝ) a := by
    intro a
    fin_cases a <;> simp
  have hI : ∀ a : Fin 3, Integrable (boltz 1 1 4 (isotope ![16, 1, 1] 2 a)
      (fun q : Conf 3 3 => ∑ x, 1 / 2 * q x ^ 2)) := by
    intro a
    refine (trap_averages (by norm_num) (by norm_num) fun b => ?_).one
    have h1 := hm b
    have h2 := hm a
    unfold isotope
    rw [Function.update_apply]
    split
    · exact mul_nonneg two_pos.le h2
    · exact h1
  have hat : (Sel.atoms ![ "O", "H", "H"] (.label "H") : Finset (Fin 3)).Nonempty :=
    ⟨1, by simp [Sel.atoms, Sel.takes]⟩
  obtain ⟨x, h1, -, h2⟩ := zetatd_mean (m := ![16, 1, 1]) 2 ![ "O", "H", "H"] (.label "H") rfl hat fun a _ => hI a
  obtain ⟨y, h3, -, h4⟩ := zetasc_mean (m := ![16, 1, 1]) two_pos ![ "O", "H", "H"] (.label "H") rfl hat
    fun a _ => hI a
  refine ⟨x, y, h1, h3, ?_⟩
  have hZ : 0 < ∫ q, boltz 1 1 4 ![16, 1, 1] (fun q : Conf 3 3 => ∑ x, 1 / 2 * q x ^ 2) q :=
    integral_exp_pos (trap_averages (by norm_num) (by norm_num) hm).one
  rw [← h4, div_left_inj' hZ.ne'] at h2
  exact h2

/-! ### Fourth order -/

/-- Specification: the potential of the Takahashi-Imada factorisation,
`V + Σ (ħβ/P)² f² / (24 m)` with `omegan2 = (P / ħβ)²`. -/
noncomputable def vTi (omegan2 : ℝ) (pots : Conf n N → Fin (n + 1) → ℝ) (f : Conf n N → Conf n N)
    (m : Fin N → ℝ) (q : Conf n N) : ℝ :=
  (∑ b, pots q b) + ∑ a, ∑ d, ∑ b, f q (b, a, d) ^ 2 / (24 * m a * omegan2)

/-- Specification: the potential of the Suzuki-Chin factorisation: weights 2/3 and 4/3 of even and odd
replicas and `Σ (ħβ/P)² f² / (9 m)` of the odd ones. -/
noncomputable def vSc (omegan2 : ℝ) (pots : Conf n N → Fin (n + 1) → ℝ) (f : Conf n N → Conf n N)
    (m : Fin N → ℝ) (q : Conf n N) : ℝ :=
  (∑ b : Fin (n + 1), (if (b : ℕ) % 2 = 0 then 2 / 3 else 4 / 3) * pots q b)
    + ∑ a, ∑ d, ∑ b : Fin (n + 1), if (b : ℕ) % 2 = 1 then f q (b, a, d) ^ 2 / (9 * m a * omegan2) else 0

theorem parity_succ (hn : (n + 1) % 2 = 0) (b : Fin (n + 1)) :
    ((b + 1 : Fin (n + 1)) : ℕ) % 2 = ((b : ℕ) + 1) % 2 := by
  rcases Fin.eq_castSucc_or_eq_last b with ⟨c, rfl⟩ | rfl
  · rw [Fin.coeSucc_eq_succ]
    simp
  · rw [Fin.last_add_one]
    simp only [Fin.val_zero, Fin.val_last]
    omega

/-- The pairwise corrections give the weights 2/3 and 4/3. -/
theorem evenDiff_weights (hn : (n + 1) % 2 = 0) (p : Fin (n + 1) → ℝ) :
    (∑ b, p b) + evenDiff p = ∑ b : Fin (n + 1), (if (b : ℕ) % 2 = 0 then 2 / 3 else 4 / 3) * p b := by
  have h1 : evenDiff p = (∑ b : Fin (n + 1), if (b : ℕ) % 2 = 0 then -p b / 3 else 0)
      + ∑ b : Fin (n + 1), if (b : ℕ) % 2 = 1 then p b / 3 else 0 := by
    have h2 : (∑ b : Fin (n + 1), if (b : ℕ) % 2 = 1 then p b / 3 else 0)
        = ∑ b : Fin (n + 1), if (b : ℕ) % 2 = 0 then p (b + 1) / 3 else 0 := by
      rw [← Equiv.sum_comp (Equiv.addRight (1 : Fin (n + 1)))
        (fun b : Fin (n + 1) => if (b : ℕ) % 2 = 1 then p b / 3 else 0)]
      refine Finset.sum_congr rfl fun b _ => ?_
      rw [Equiv.coe_addRight, parity_succ hn]
      by_cases h : (b : ℕ) % 2 = 0
      · rw [if_pos h, if_pos (by omega)]
      · rw [if_neg h, if_neg (by omega)]
    rw [h2, ← Finset.sum_add_distrib]
    unfold evenDiff
    refine Finset.sum_congr rfl fun b _ => ?_
    split <;> ring
  rw [h1, ← Finset.sum_add_distrib, ← Finset.sum_add_distrib]
  refine Finset.sum_congr rfl fun b _ => ?_
  by_cases h : (b : ℕ) % 2 = 0
  · rw [if_pos h, if_pos h, if_neg (by omega)]
    ring
  · rw [if_neg h, if_neg h, if_pos (by omega)]
    ring

theorem sum_iso_div {alpha : ℝ} (a : Fin N) (g : Fin N → ℝ) (c : ℝ) :
    ∑ k, g k / (c * isotope m alpha a k * omegan2)
      = (∑ k, g k / (c * m k * omegan2)) + g a * ((1 / alpha - 1) / (c * m a * omegan2)) := by
  rw [← Finset.add_sum_erase univ (fun k => g k / (c * isotope m alpha a k * omegan2))
      (Finset.mem_univ a),
    ← Finset.add_sum_erase univ (fun k => g k / (c * m k * omegan2)) (Finset.mem_univ a)]
  have : ∑ k ∈ univ.erase a, g k / (c * isotope m alpha a k * omegan2)
      = ∑ k ∈ univ.erase a, g k / (c * m k * omegan2) := by
    refine Finset.sum_congr rfl fun k hk => ?_
    rw [isotope, Function.update_of_ne (Finset.ne_of_mem_erase hk)]
  rw [this, isotope, Function.update_self]
  have e : g a / (c * (alpha * m a) * omegan2) = g a * (1 / alpha / (c * m a * omegan2)) := by
    rw [div_div, mul_one_div]
    congr 1
    ring
  rw [e, sub_div]
  ring

/-- The squares of the forces, summed as the specification does. -/
theorem sq_sum (pots : Conf n N → Fin (n + 1) → ℝ) (m : Fin N → ℝ) (q : Conf n N) :
    vTi omegan2 pots f m q
      = (∑ b, pots q b) + ∑ a, (∑ d, ∑ b, f q (b, a, d) ^ 2) / (24 * m a * omegan2) := by
  unfold vTi
  simp only [Finset.sum_div]

theorem sq_sum_odd (pots : Conf n N → Fin (n + 1) → ℝ) (hn : (n + 1) % 2 = 0) (m : Fin N → ℝ)
    (q : Conf n N) :
    vSc omegan2 pots f m q
      = (∑ b, pots q b) + evenDiff (pots q)
        + ∑ a, (∑ d, oddSum fun b => f q (b, a, d) ^ 2) / (9 * m a * omegan2) := by
  unfold vSc
  rw [evenDiff_weights hn]
  congr 1
  refine Finset.sum_congr rfl fun a _ => ?_
  rw [Finset.sum_div]
  refine Finset.sum_congr rfl fun d _ => ?_
  unfold oddSum
  rw [Finset.sum_div]
  refine Finset.sum_congr rfl fun b _ => ?_
  split <;> simp

/-- The weight of a replica configuration turns the distribution into that of the Takahashi-Imada
factorisation. -/
theorem tiWeight_mean (pots : Conf n N → Fin (n + 1) → ℝ) (q : Conf n N) :
    tiWeight kB T omegan2 m (f q) * boltz kB T omegan2 m (fun q => ∑ b, pots q b) q
      = boltz kB T omegan2 m (vTi omegan2 pots f m) q := by
  rw [boltz_eq, boltz_eq, tiWeight, ← Real.exp_add, sq_sum]
  congr 1
  have : ∀ a, (∑ d, ∑ b, f q (b, a, d) ^ 2) / (24 * m a * omegan2)
      = (∑ d, ∑ b, f q (b, a, d) ^ 2 / m a) * (1 / 24 / omegan2) := by
    intro a
    simp only [← Finset.sum_div]
    rw [div_div, mul_one_div, div_div]
    rw [div_mul_eq_div_div]
    ring
  simp only [this, ← Finset.sum_mul]
  ring

theorem chinWeight_ok (hn : (n + 1) % 2 = 0) (pots : Fin (n + 1) → ℝ) (f : Conf n N) :
    chinWeight kB T omegan2 m pots f = .ok (Real.exp (((∑ a, ∑ d, oddSum fun b => f (b, a, d) ^ 2 / m a)
      * (4 / 3 * (1 / 12) / omegan2) + evenDiff pots) * -(1 / (((n + 1 : ℕ) : ℝ) * kB * T)))) := by
  unfold chinWeight
  rw [if_neg (by omega)]
  rfl

/-- The weight of a replica configuration turns the distribution into that of the Suzuki-Chin
factorisation. -/
theorem chinWeight_mean (hn : (n + 1) % 2 = 0) (pots : Conf n N → Fin (n + 1) → ℝ) (q : Conf n N) :
    ∃ w, chinWeight kB T omegan2 m (pots q) (f q) = .ok w ∧
      w * boltz kB T omegan2 m (fun q => ∑ b, pots q b) q
        = boltz kB T omegan2 m (vSc omegan2 pots f m) q := by
  refine ⟨_, chinWeight_ok hn _ _, ?_⟩
  rw [boltz_eq, boltz_eq, ← Real.exp_add, sq_sum_odd pots hn]
  congr 1
  have : ∀ a, (∑ d, oddSum fun b => f q (b, a, d) ^ 2) / (9 * m a * omegan2)
      = (∑ d, oddSum fun b => f q (b, a, d) ^ 2 / m a) * (4 / 3 * (1 / 12) / omegan2) := by
    intro a
    have e : ∀ d, (oddSum fun b => f q (b, a, d) ^ 2 / m a) = (oddSum fun b => f q (b, a, d) ^ 2) / m a := by
      intro d
      unfold oddSum
      rw [Finset.sum_div]
      refine Finset.sum_congr rfl fun b _ => ?_
      split <;> simp
    simp only [e, ← Finset.sum_div]
    rw [mul_right_comm, div_mul_eq_div_div_swap]
    ring
  simp only [this, ← Finset.sum_mul]
  ring

theorem zetatd4_ok (alpha : ℝ) (names : Fin N → String) (s : Sel) (hs : s.check N = .ok ())
    (hne : (s.atoms names).Nonempty) (q f : Conf n N) :
    zetatd4 kB T omegan2 m names alpha s q f = .ok (
      (∑ a ∈ s.atoms names, Real.exp (-(1 / (((n + 1 : ℕ) : ℝ) * kB * T))
        * (springs q a * (0.5 * (alpha - 1) * m a * omegan2)))) / ((s.atoms names).card : ℝ)
        * alpha ^ ((1.5 : ℝ) * (((n + 1 : ℕ) : ℝ) - 1)),
      (∑ a ∈ s.atoms names, Real.exp (-(1 / (((n + 1 : ℕ) : ℝ) * kB * T))
        * (springs q a * (0.5 * (alpha - 1) * m a * omegan2) + (∑ d, ∑ b, f (b, a, d) ^ 2)
    * ((1 / alpha - 1) * 1 / m a * (1 / 24) / omegan2)))) / ((s.atoms names).card : ℝ)
        * alpha ^ ((1.5 : ℝ) * (((n + 1 : ℕ) : ℝ) - 1)),
      (∑ a ∈ s.atoms names, Real.exp (-(1 / (((n + 1 : ℕ) : ℝ) * kB * T))
        * (springs q a * (0.5 * (alpha - 1) * m a * omegan2) + (∑ d, oddSum fun b => f (b, a, d) ^ 2)
    * ((1 / alpha - 1) * 1 / m a * (4 / 3) * (1 / 12) / omegan2)))) / ((s.atoms names).card : ℝ)
        * alpha ^ ((1.5 : ℝ) * (((n + 1 : ℕ) : ℝ) - 1))) := by
  have hc : (s.atoms names).card ≠ 0 := Finset.card_ne_zero.2 hne
  unfold zetatd4
  rw [hs]
  simp only [bind, Except.bind, if_neg hc, pure, Except.pure]

/-- The change of the fourth order potentials with the mass of one atom. -/
theorem vTi_iso (pots : Conf n N → Fin (n + 1) → ℝ) (alpha : ℝ) (a : Fin N) (q : Conf n N) :
    vTi omegan2 pots f (isotope m alpha a) q = vTi omegan2 pots f m q
      + (∑ d, ∑ b, f q (b, a, d) ^ 2) * ((1 / alpha - 1) * 1 / m a * (1 / 24) / omegan2) := by
  rw [sq_sum, sq_sum, sum_iso_div a (fun a => ∑ d, ∑ b, f q (b, a, d) ^ 2), add_assoc]
  congr 3
  rw [mul_one, mul_assoc, mul_comm (24 : ℝ), div_mul_eq_div_div, div_mul_eq_div_div]
  ring

theorem vSc_iso (hn : (n + 1) % 2 = 0) (pots : Conf n N → Fin (n + 1) → ℝ) (alpha : ℝ) (a : Fin N)
    (q : Conf n N) :
    vSc omegan2 pots f (isotope m alpha a) q = vSc omegan2 pots f m q
      + (∑ d, oddSum fun b => f q (b, a, d) ^ 2)
        * ((1 / alpha - 1) * 1 / m a * (4 / 3) * (1 / 12) / omegan2) := by
  rw [sq_sum_odd pots hn, sq_sum_odd pots hn,
    sum_iso_div a (fun a => ∑ d, oddSum fun b => f q (b, a, d) ^ 2), ← add_assoc]
  congr 2
  rw [mul_one, mul_assoc, mul_comm (9 : ℝ), div_mul_eq_div_div, div_mul_eq_div_div]
  ring

theorem boltz_add (V : Conf n N → ℝ) (V' : Conf n N → ℝ) (x : ℝ) (q : Conf n N) (h : V' q = V q + x) :
    Real.exp (-(1 / (kB * T * ((n + 1 : ℕ) : ℝ))) * x) * boltz kB T omegan2 m V q
      = boltz kB T omegan2 m V' q := by
  rw [boltz_eq, boltz_eq, ← Real.exp_add, h]
  congr 1
  ring

/-- **The fourth order thermodynamic isotope estimators**, reweighted with the weights printed for the
factorisation, average to the ratios of the partition functions of that factorisation. -/
theorem zetatd4_mean (hn : (n + 1) % 2 = 0) (pots : Conf n N → Fin (n + 1) → ℝ)
    (alpha : ℝ) (names : Fin N → String) (s : Sel) (hs : s.check N = .ok ())
    (hne : (s.atoms names).Nonempty)
    (hti : ∀ a ∈ s.atoms names, Integrable (boltz kB T omegan2 (isotope m alpha a)
      (vTi omegan2 pots f (isotope m alpha a))))
    (hsc : ∀ a ∈ s.atoms names, Integrable (boltz kB T omegan2 (isotope m alpha a)
      (vSc omegan2 pots f (isotope m alpha a)))) :
    ∃ x ti sc wsc : Conf n N → ℝ,
      (∀ q, zetatd4 kB T omegan2 m names alpha s q (f q) = .ok (x q, ti q, sc q)) ∧
      (∀ q, chinWeight kB T omegan2 m (pots q) (f q) = .ok (wsc q)) ∧
      (∀ q, ∃ u v, zetatd kB T omegan2 m names alpha s q = .ok (u, v, x q)) ∧
      (∫ q, ti q * (tiWeight kB T omegan2 m (f q) * boltz kB T omegan2 m (fun q => ∑ b, pots q b) q))
          / (∫ q, tiWeight kB T omegan2 m (f q) * boltz kB T omegan2 m (fun q => ∑ b, pots q b) q)
        = isoRatio kB T omegan2 m alpha (s.atoms names) (vTi omegan2 pots f) ∧
      (∫ q, sc q * (wsc q * boltz kB T omegan2 m (fun q => ∑ b, pots q b) q))
          / (∫ q, wsc q * boltz kB T omegan2 m (fun q => ∑ b, pots q b) q)
        = isoRatio kB T omegan2 m alpha (s.atoms names) (vSc omegan2 pots f) := by
  choose wsc hw1 hw2 using chinWeight_mean (kB := kB) (T := T) (omegan2 := omegan2) (m := m) (f := f)
    hn pots
  refine ⟨_, _, _, wsc, fun q => zetatd4_ok alpha names s hs hne q (f q), hw1, ?_, ?_, ?_⟩
  · intro q
    obtain ⟨u, v, h⟩ := zetatd_ok (kB := kB) (T := T) (omegan2 := omegan2) (m := m) alpha names s hs hne q
    refine ⟨u, v, ?_⟩
    rw [h, show ((n + 1 : ℕ) : ℝ) * kB * T = kB * T * ((n + 1 : ℕ) : ℝ) by ring]
  · simp only [tiWeight_mean]
    refine (td_average (s.atoms names) (vTi omegan2 pots f) hti _ _ fun a q => ?_).2
    rw [show ((n + 1 : ℕ) : ℝ) * kB * T = kB * T * ((n + 1 : ℕ) : ℝ) by ring, mul_add, Real.exp_add,
      mul_right_comm, boltz_td, mul_comm]
    exact boltz_add _ _ _ q (vTi_iso pots alpha a q)
  · simp only [hw2]
    refine (td_average (s.atoms names) (vSc omegan2 pots f) hsc _ _ fun a q => ?_).2
    rw [show ((n + 1 : ℕ) : ℝ) * kB * T = kB * T * ((n + 1 : ℕ) : ℝ) by ring, mul_add, Real.exp_add,
      mul_right_comm, boltz_td, mul_comm]
    exact boltz_add _ _ _ q (vSc_iso hn pots alpha a q)

theorem zetasc4_ok (hn : (n + 1) % 2 = 0) (alpha : ℝ) (names : Fin N → String) (s : Sel)
    (hs : s.check N = .ok ()) (hne : (s.atoms names).Nonempty)
    (pots : Conf n N → Fin (n + 1) → ℝ) (f : Conf n N → Conf n N) (q : Conf n N) :
    zetasc4 kB T omegan2 m names alpha s pots pots f f q = .ok (
      (∑ a ∈ s.atoms names, Real.exp (-(1 / (kB * T * ((n + 1 : ℕ) : ℝ)))
        * ((∑ b, pots (scaledAtom q a (1 / √alpha)) b) - ∑ b, pots q b))) / ((s.atoms names).card : ℝ),
      (∑ a ∈ s.atoms names, Real.exp (-(1 / (kB * T * ((n + 1 : ℕ) : ℝ)))
        * (((∑ b, pots (scaledAtom q a (1 / √alpha)) b) - ∑ b, pots q b)
          + (∑ d, ∑ b, (f (scaledAtom q a (1 / √alpha)) (b, a, d) ^ 2 / alpha - f q (b, a, d) ^ 2))
            * (1 / m a * (1 / 24) / omegan2)))) / ((s.atoms names).card : ℝ),
      (∑ a ∈ s.atoms names, Real.exp (-(1 / (kB * T * ((n + 1 : ℕ) : ℝ)))
        * (((∑ b, pots (scaledAtom q a (1 / √alpha)) b) - ∑ b, pots q b)
          + ((∑ d, oddSum fun b => f (scaledAtom q a (1 / √alpha)) (b, a, d) ^ 2 / alpha - f q (b, a, d) ^ 2)
              * (1 / m a * (4 / 3) * (1 / 12) / omegan2)
            + ∑ b : Fin (n + 1), if (b : ℕ) % 2 = 0 then
                ((-pots (scaledAtom q a (1 / √alpha)) b + pots (scaledAtom q a (1 / √alpha)) (b + 1))
                  - (-pots q b + pots q (b + 1))) / 3 else 0)))) / ((s.atoms names).card : ℝ)) := by
  have hc : (s.atoms names).card ≠ 0 := Finset.card_ne_zero.2 hne
  unfold zetasc4
  rw [hs]
  simp only [bind, Except.bind, if_neg hc, pure, Except.pure]
  rw [if_neg (by omega)]

theorem sum_iso_moved {alpha : ℝ} (a : Fin N) (g g' : Fin N → ℝ) (h : ∀ k, k ≠ a → g' k = g k) (c : ℝ) :
    ∑ k, g' k / (c * isotope m alpha a k * omegan2)
      = (∑ k, g k / (c * m k * omegan2)) + (g' a / alpha - g a) * (1 / (c * m a * omegan2)) := by
  rw [← Finset.add_sum_erase univ (fun k => g' k / (c * isotope m alpha a k * omegan2))
      (Finset.mem_univ a),
    ← Finset.add_sum_erase univ (fun k => g k / (c * m k * omegan2)) (Finset.mem_univ a)]
  have : ∑ k ∈ univ.erase a, g' k / (c * isotope m alpha a k * omegan2)
      = ∑ k ∈ univ.erase a, g k / (c * m k * omegan2) := by
    refine Finset.sum_congr rfl fun k hk => ?_
    rw [isotope, Function.update_of_ne (Finset.ne_of_mem_erase hk), h k (Finset.ne_of_mem_erase hk)]
  rw [this, isotope, Function.update_self]
  have e : g' a / (c * (alpha * m a) * omegan2) = g' a / alpha * (1 / (c * m a * omegan2)) := by
    rw [div_mul_div_comm, mul_one]
    congr 1
    ring
  rw [e]
  ring

/-- The fourth order scaled-coordinates isotope estimators are right if the forces on the other atoms
do not change with the path of the substituted atom. -/
theorem zetasc4_mean_partial (hn : (n + 1) % 2 = 0) (pots : Conf n N → Fin (n + 1) → ℝ)
    {alpha : ℝ} (ha : 0 < alpha) (names : Fin N → String) (s : Sel) (hs : s.check N = .ok ())
    (hne : (s.atoms names).Nonempty)
    (hother : ∀ a ∈ s.atoms names, ∀ q k, k ≠ a → ∀ b d,
      f (scaledAtom q a (1 / √alpha)) (b, k, d) = f q (b, k, d))
    (hti : ∀ a ∈ s.atoms names, Integrable (boltz kB T omegan2 (isotope m alpha a)
      (vTi omegan2 pots f (isotope m alpha a))))
    (hsc : ∀ a ∈ s.atoms names, Integrable (boltz kB T omegan2 (isotope m alpha a)
      (vSc omegan2 pots f (isotope m alpha a)))) :
    ∃ x ti sc wsc : Conf n N → ℝ,
      (∀ q, zetasc4 kB T omegan2 m names alpha s pots pots f f q = .ok (x q, ti q, sc q)) ∧
      (∀ q, chinWeight kB T omegan2 m (pots q) (f q) = .ok (wsc q)) ∧
      (∀ q, ∃ u v, zetasc kB T names alpha s (fun q => ∑ b, pots q b) (fun q => ∑ b, pots q b) q
        = .ok (u, v, x q)) ∧
      (∫ q, ti q * (tiWeight kB T omegan2 m (f q) * boltz kB T omegan2 m (fun q => ∑ b, pots q b) q))
          / (∫ q, tiWeight kB T omegan2 m (f q) * boltz kB T omegan2 m (fun q => ∑ b, pots q b) q)
        = isoRatio kB T omegan2 m alpha (s.atoms names) (vTi omegan2 pots f) ∧
      (∫ q, sc q * (wsc q * boltz kB T omegan2 m (fun q => ∑ b, pots q b) q))
          / (∫ q, wsc q * boltz kB T omegan2 m (fun q => ∑ b, pots q b) q)
        = isoRatio kB T omegan2 m alpha (s.atoms names) (vSc omegan2 pots f) := by
  choose wsc hw1 hw2 using chinWeight_mean (kB := kB) (T := T) (omegan2 := omegan2) (m := m) (f := f)
    hn pots
  -- only the selected atoms matter
  have key : ∀ (A : Finset (Fin N)) (V : (Fin N → ℝ) → Conf n N → ℝ)
      (hI : ∀ a ∈ A, Integrable (boltz kB T omegan2 (isotope m alpha a) (V (isotope m alpha a))))
      (x : Fin N → Conf n N → ℝ) (hx : ∀ a ∈ A, ∀ q,
        x a q = V (isotope m alpha a) (scaledAtom q a (1 / √alpha)) - V m q),
      (∫ q, (∑ a ∈ A, Real.exp (-(1 / (kB * T * ((n + 1 : ℕ) : ℝ))) * x a q)) / (A.card : ℝ)
        * boltz kB T omegan2 m (V m) q) / ∫ q, boltz kB T omegan2 m (V m) q
        = isoRatio kB T omegan2 m alpha A V := by
    intro A V hI x hx
    have h := (sc_average ha A V hI (boltz kB T omegan2 m (V m)) _ fun a q => rfl).2
    rw [← h]
    congr 2
    funext q
    congr 2
    exact Finset.sum_congr rfl fun a hA => by rw [hx a hA q]
  refine ⟨_, _, _, wsc, fun q => zetasc4_ok hn alpha names s hs hne pots f q, hw1, ?_, ?_, ?_⟩
  · intro q
    exact zetasc_ok alpha names s hs hne _ _ q
  · simp only [tiWeight_mean]
    refine key _ (vTi omegan2 pots f) hti _ fun a hA q => ?_
    rw [sq_sum, sq_sum, sum_iso_moved a (fun a => ∑ d, ∑ b, f q (b, a, d) ^ 2)
      (fun k => ∑ d, ∑ b, f (scaledAtom q a (1 / √alpha)) (b, k, d) ^ 2)
      fun k hk => by simp only [hother a hA q k hk]]
    simp only [Finset.sum_sub_distrib, ← Finset.sum_div]
    rw [show (1 : ℝ) / (24 * m a * omegan2) = 1 / m a * (1 / 24) / omegan2 by
      rw [div_mul_div_comm, div_div, mul_comm (m a), one_mul]]
    ring
  · simp only [hw2]
    refine key _ (vSc omegan2 pots f) hsc _ fun a hA q => ?_
    rw [sq_sum_odd pots hn, sq_sum_odd pots hn,
      sum_iso_moved a (fun a => ∑ d, oddSum fun b => f q (b, a, d) ^ 2)
      (fun k => ∑ d, oddSum fun b => f (scaledAtom q a (1 / √alpha)) (b, k, d) ^ 2)
      fun k hk => by simp only [hother a hA q k hk]]
    have e1 : ∀ d, (oddSum fun b => f (scaledAtom q a (1 / √alpha)) (b, a, d) ^ 2 / alpha - f q (b, a, d) ^ 2)
        = (oddSum fun b => f (scaledAtom q a (1 / √alpha)) (b, a, d) ^ 2) / alpha
          - oddSum fun b => f q (b, a, d) ^ 2 := by
      intro d
      unfold oddSum
      rw [Finset.sum_div, ← Finset.sum_sub_distrib]
      refine Finset.sum_congr rfl fun b _ => ?_
      split <;> simp
    have e2 : (∑ b : Fin (n + 1), if (b : ℕ) % 2 = 0 then
          ((-pots (scaledAtom q a (1 / √alpha)) b + pots (scaledAtom q a (1 / √alpha)) (b + 1))
            - (-pots q b + pots q (b + 1))) / 3 else 0)
        = evenDiff (pots (scaledAtom q a (1 / √alpha))) - evenDiff (pots q) := by
      unfold evenDiff
      rw [← Finset.sum_sub_distrib]
      refine Finset.sum_congr rfl fun b _ => ?_
      split <;> ring
    simp only [e1, e2, Finset.sum_sub_distrib, ← Finset.sum_div]
    rw [show (1 : ℝ) / (9 * m a * omegan2) = 1 / m a * (4 / 3) * (1 / 12) / omegan2 by
      rw [div_mul_div_comm, div_mul_div_comm, div_div, show m a * 3 * 12 = 4 * (9 * m a) by ring,
        show (1 : ℝ) * 4 * 1 = 4 * 1 by ring, mul_assoc (4 : ℝ), mul_div_mul_left _ _ (by norm_num)]]
    ring

/-! ### Trajectories -/

/-- The isotope ratio written for an atom in a trajectory lacks the factor of the free particle, while
the scaled-coordinates one does not. -/
theorem trajZetatd_factor (alpha : ℝ) (names : Fin N → String) (a : Fin N) (q : Conf n N) :
    ∃ x, trajZetatd kB T omegan2 m names alpha .all q a = .ok x ∧
      x * boltz kB T omegan2 m V q = boltz kB T omegan2 (isotope m alpha a) V q := by
  refine ⟨_, rfl, ?_⟩
  rw [← boltz_td alpha a V q]
  simp only [Sel.takes, if_true]
  rw [neg_div]

theorem trajZetasc_factor {alpha : ℝ} (ha : 0 < alpha) (names : Fin N → String) (a : Fin N) :
    ∃ x : Conf n N → ℝ, (∀ q, trajZetasc kB T names alpha .all V V q a = .ok (x q)) ∧
      ∫ q, x q * boltz kB T omegan2 m V q = alpha ^ ((1.5 : ℝ) * (((n + 1 : ℕ) : ℝ) - 1))
        * ∫ q, boltz kB T omegan2 (isotope m alpha a) V q := by
  refine ⟨_, fun q => rfl, ?_⟩
  have h := integral_sc (kB := kB) (T := T) (omegan2 := omegan2) (m := m) ha a V V (fun _ => 1)
  simp only [one_mul] at h
  rw [← h]
  congr 1
  funext q
  congr 2
  simp only [Sel.takes, if_true]
  rw [← sub_div, neg_mul, one_mul, neg_mul, neg_mul, div_mul_eq_div_div]
  ring

theorem isoRatio_single (alpha : ℝ) (a : Fin N) : isoRatio kB T omegan2 m alpha {a} (fun _ => V)
    = alpha ^ ((3 : ℝ) / 2 * n) * ((∫ q, boltz kB T omegan2 (isotope m alpha a) V q)
      / ∫ q, boltz kB T omegan2 m V q) := by
  simp [isoRatio]

theorem boltz_integral_pos (hi : Integrable (boltz kB T omegan2 m V)) :
    0 < ∫ q, boltz kB T omegan2 m V q := integral_exp_pos hi

/-- So the average over a trajectory of the thermodynamic ratio is not the ratio of partition
functions. -/
theorem trajZetatd_wrong {alpha : ℝ} (ha : 1 < alpha) (hn : 0 < n) (names : Fin N → String) (a : Fin N)
    (hi : Integrable (boltz kB T omegan2 m V))
    (hI : Integrable (boltz kB T omegan2 (isotope m alpha a) V)) :
    ∃ x : Conf n N → ℝ, (∀ q, trajZetatd kB T omegan2 m names alpha .all q a = .ok (x q)) ∧
      (∫ q, x q * boltz kB T omegan2 m V q) / (∫ q, boltz kB T omegan2 m V q)
        < isoRatio kB T omegan2 m alpha {a} fun _ => V := by
  choose x hx1 hx2 using trajZetatd_factor (n := n) (kB := kB) (T := T) (omegan2 := omegan2) (m := m)
    (V := V) alpha names a
  refine ⟨x, hx1, ?_⟩
  simp only [hx2, isoRatio_single]
  have h1 : 0 < (∫ q, boltz kB T omegan2 (isotope m alpha a) V q) / ∫ q, boltz kB T omegan2 m V q :=
    div_pos (boltz_integral_pos hI) (boltz_integral_pos hi)
  refine lt_mul_of_one_lt_left h1 (Real.one_lt_rpow ha ?_)
  have : (0 : ℝ) < n := by exact_mod_cast hn
  positivity

/-- Atoms that are not selected have 1 in the third column, not 0. -/
theorem traj_unselected (alpha : ℝ) (names : Fin N → String) (s : Sel) (hs : s.check N = .ok ())
    (a : Fin N) (h : s.takes names a = false) (V V' : Conf n N → ℝ) (q : Conf n N) :
    trajZetatd kB T omegan2 m names alpha s q a = .ok 1 ∧
      trajZetasc kB T names alpha s V V' q a = .ok 1 := by
  unfold trajZetatd trajZetasc
  rw [hs, h]
  constructor
  · change Except.ok _ = Except.ok _
    simp
  · change Except.ok _ = Except.ok _
    simp

/-! ### Scaled mass kinetic energy -/

/-- Specification: the number a logarithm and a sign stand for. -/
noncomputable def val (x : Option ℝ × ℝ) : ℝ := x.2 * (x.1.elim 0 Real.exp)

theorem val_logAbs (y x : ℝ) : val (addLog y (logAbs x), ((SignType.sign x : SignType) : ℝ)) = x * Real.exp y := by
  unfold val logAbs
  by_cases h : x = 0
  · simp [h, addLog]
  · rw [if_neg h]
    simp only [addLog, Option.map_some, Option.elim_some]
    rw [Real.exp_add, Real.exp_log (abs_pos.2 h), mul_left_comm, sign_mul_abs, mul_comm]

/-- `logsumlog` adds when the larger term is positive. -/
theorem logsumlog_pos (la lb sa sb : ℝ) (ha : sa = 1 ∨ sa = -1) (hb : sb = 1 ∨ sb = -1)
    (h : (lb < la ∧ sa = 1) ∨ (la < lb ∧ sb = 1) ∨ (la = lb ∧ sa = 1 ∧ sb = 1)) :
    ∃ r, logsumlog (some la, sa) (some lb, sb) = some r ∧ r.2 = 1 ∧ r.1.isSome ∧
      val r = val (some la, sa) + val (some lb, sb) := by
  have key : ∀ x y s : ℝ, (s = 1 ∨ s = -1) → (y < x ∨ s = 1) →
      ∃ l, addLog x (logAbs (1 + s * Real.exp (y - x))) = some l ∧
        Real.exp l = Real.exp x + s * Real.exp y := by
    intro x y s hs hxy
    have hp : 0 < 1 + s * Real.exp (y - x) := by
      rcases hs with rfl | rfl
      · positivity
      · have : y < x := by
          rcases hxy with h | h
          · exact h
          · norm_num at h
        have := Real.exp_lt_one_iff.2 (by linarith : y - x < 0)
        linarith
    refine ⟨x + Real.log |1 + s * Real.exp (y - x)|, ?_, ?_⟩
    · unfold logAbs
      rw [if_neg hp.ne']
      rfl
    · rw [Real.exp_add, Real.exp_log (abs_pos.2 hp.ne'), abs_of_pos hp, Real.exp_sub]
      have := (Real.exp_pos x).ne'
      field_simp
  unfold logsumlog
  rcases h with ⟨h, rfl⟩ | ⟨h, rfl⟩ | ⟨rfl, rfl, rfl⟩
  · simp only [if_pos h]
    obtain ⟨l, h1, h2⟩ := key la lb sb hb (Or.inl h)
    refine ⟨_, rfl, rfl, ?_, ?_⟩
    · rw [h1]; rfl
    · rw [h1]
      simp only [val, Option.elim_some, one_mul, h2]
  · simp only [if_neg (not_lt.2 h.le)]
    obtain ⟨l, h1, h2⟩ := key lb la sa ha (Or.inl h)
    refine ⟨_, rfl, rfl, ?_, ?_⟩
    · rw [h1]; rfl
    · rw [h1]
      simp only [val, Option.elim_some, one_mul, h2]
      ring
  · simp only [lt_irrefl, if_false]
    obtain ⟨l, h1, h2⟩ := key la la 1 (Or.inl rfl) (Or.inr rfl)
    refine ⟨_, rfl, rfl, ?_, ?_⟩
    · rw [h1]; rfl
    · rw [h1]
      simp only [val, Option.elim_some, one_mul, h2]

/-- `logsumlog` is wrong whenever the larger term is negative, and when the terms cancel. -/
theorem logsumlog_wrong (la lb sb : ℝ) (hb : sb = 1 ∨ sb = -1) (h : lb < la) :
    ∀ r, logsumlog (some la, -1) (some lb, sb) = some r →
      val r ≠ val (some la, -1) + val (some lb, sb) := by
  intro r hr
  unfold logsumlog at hr
  simp only [if_pos h, Option.some.injEq] at hr
  subst hr
  have hp : 0 < 1 + sb * Real.exp (lb - la) := by
    have := Real.exp_lt_one_iff.2 (by linarith : lb - la < 0)
    rcases hb with rfl | rfl
    · positivity
    · linarith
  unfold logAbs
  rw [if_neg hp.ne']
  simp only [addLog, Option.map_some, val, Option.elim_some]
  rw [Real.exp_add, Real.exp_log (abs_pos.2 hp.ne'), abs_of_pos hp, Real.exp_sub]
  have h1 := Real.exp_pos la
  have h2 := Real.exp_pos lb
  intro he
  have e : Real.exp la * (1 + sb * (Real.exp lb / Real.exp la)) = Real.exp la + sb * Real.exp lb := by
    field_simp
  rw [e] at he
  have h3 : sb * Real.exp lb = 0 := by linarith
  rcases hb with rfl | rfl <;> simp at h3

theorem logsumlog_cancel (l : ℝ) :
    ∃ r, logsumlog (some l, 1) (some l, -1) = some r ∧ val r = -2 * Real.exp l ∧
      val (some l, 1) + val (some l, -1) = 0 := by
  unfold logsumlog
  simp only [lt_irrefl, if_false]
  refine ⟨_, rfl, ?_, ?_⟩
  · unfold logAbs
    simp only [sub_self, Real.exp_zero, mul_one]
    rw [if_neg (by norm_num)]
    simp only [addLog, Option.map_some, val, Option.elim_some]
    rw [Real.exp_add, show |(1 : ℝ) + 1| = 2 by norm_num, Real.exp_log (by norm_num)]
    ring
  · simp [val]

/-- The accumulated logarithm of a sum of positive terms. -/
theorem logSum_pos (l : List ℝ) (hl : l ≠ []) :
    ∃ r, logSum (l.map fun x => (some x, 1)) = some (some r, 1) ∧
      Real.exp r = (l.map Real.exp).sum := by
  cases l with
  | nil => exact absurd rfl hl
  | cons x xs =>
      simp only [List.map_cons, logSum, List.sum_cons]
      clear hl
      induction xs generalizing x with
      | nil => exact ⟨x, rfl, by simp⟩
      | cons y ys ih =>
          simp only [List.map_cons, List.foldl_cons, Option.bind_some]
          have h : (y < x ∧ (1 : ℝ) = 1) ∨ (x < y ∧ (1 : ℝ) = 1) ∨ (x = y ∧ (1 : ℝ) = 1 ∧ (1 : ℝ) = 1) := by
            rcases lt_trichotomy x y with h | h | h
            · exact Or.inr (Or.inl ⟨h, rfl⟩)
            · exact Or.inr (Or.inr ⟨h, rfl, rfl⟩)
            · exact Or.inl ⟨h, rfl⟩
          obtain ⟨⟨z, sz⟩, h1, h2, h3, h4⟩ := logsumlog_pos x y 1 1 (Or.inl rfl) (Or.inl rfl) h
          obtain ⟨z, rfl⟩ := Option.isSome_iff_exists.1 h3
          simp only at h2
          subst h2
          rw [h1]
          obtain ⟨r, h5, h6⟩ := ih z
          refine ⟨r, h5, ?_⟩
          rw [h6]
          simp only [val, Option.elim_some, one_mul] at h4
          simp only [List.sum_cons]
          linarith

/-- **The sums printed for the scaled mass kinetic energy**: that of the weights always, that of the
weighted kinetic energies if they are all positive. -/
theorem smkee_partial (names : Fin N → String) (s : Sel) (hs : s.check N = .ok ())
    (hne : (s.atoms names).Nonempty) (term : Fin N → ℝ × ℝ) :
    ∃ lw ke, smkee names s term = .ok (some (some lw, 1), ke) ∧
      Real.exp lw = ∑ a ∈ s.atoms names, Real.exp (-(term a).1) ∧
      ((∀ a ∈ s.atoms names, 0 < (term a).2) → ∃ r, ke = some r ∧
        val r = ∑ a ∈ s.atoms names, Real.exp (-(term a).1) * (term a).2) := by
  have hc : (s.atoms names).card ≠ 0 := Finset.card_ne_zero.2 hne
  have hsum : ∀ g : Fin N → ℝ, (((s.atoms names).sort (· ≤ ·)).map g).sum = ∑ a ∈ s.atoms names, g a := by
    intro g
    rw [← Finset.sum_map_toList]
    exact ((Finset.sort_perm_toList _ _).map g).sum_eq
  have hnil : ((s.atoms names).sort (· ≤ ·)) ≠ [] := by
    intro h
    apply hc
    rw [← Finset.length_sort (· ≤ ·), h]
    rfl
  obtain ⟨lw, h1, h2⟩ := logSum_pos (((s.atoms names).sort (· ≤ ·)).map fun a => -(term a).1)
    (by simpa using hnil)
  refine ⟨lw, logSum ((((s.atoms names).sort (· ≤ ·)).map term).map fun x =>
    (addLog (-x.1) (logAbs x.2), ((SignType.sign x.2 : SignType) : ℝ))), ?_, ?_, ?_⟩
  · unfold smkee
    rw [hs]
    simp only [bind, Except.bind, if_neg hc, pure, Except.pure]
    rw [← h1]
    simp only [List.map_map]
    rfl
  · rw [h2, List.map_map]
    exact hsum _
  · intro hp
    obtain ⟨r, h3, h4⟩ := logSum_pos (((s.atoms names).sort (· ≤ ·)).map
      fun a => -(term a).1 + Real.log |(term a).2|) (by simpa using hnil)
    refine ⟨(some r, 1), ?_, ?_⟩
    · rw [← h3]
      simp only [List.map_map]
      congr 1
      refine List.map_congr_left fun a ha => ?_
      have := hp a (by simpa using ha)
      simp only [Function.comp, logAbs, if_neg this.ne', sign_pos this, addLog, Option.map_some]
      simp
    · simp only [val, Option.elim_some, one_mul, h4, List.map_map]
      rw [hsum]
      refine Finset.sum_congr rfl fun a ha => ?_
      have := hp a ha
      simp only [Function.comp]
      rw [Real.exp_add, abs_of_pos this, Real.exp_log this]

/-- Two atoms with negative kinetic energies: the sum is printed as zero. -/
theorem smkee_wrong (t : ℝ × ℝ) (ht : t.2 < 0) (names : Fin 2 → String) :
    ∃ lw r, smkee names .all (fun _ : Fin 2 => t) = .ok (some (some lw, 1), some r) ∧ val r = 0 ∧
      ∑ _a : Fin 2, Real.exp (-t.1) * t.2 < 0 := by
  have ha : Sel.atoms names Sel.all = univ := by
    ext i; simp [Sel.atoms, Sel.takes]
  have hsort : ((univ : Finset (Fin 2)).sort (· ≤ ·)).map (fun _ => t) = [t, t] := by
    rw [List.map_const', Finset.length_sort]
    rfl
  have h1 : logAbs t.2 = some (Real.log |t.2|) := by
    unfold logAbs; rw [if_neg ht.ne]
  refine ⟨-t.1 + Real.log |1 + 1|, (none, -1), ?_, by simp [val], ?_⟩
  · unfold smkee
    rw [ha, hsort]
    simp only [Sel.check, bind, Except.bind, pure, Except.pure, Finset.card_univ, Fintype.card_fin]
    rw [if_neg (by norm_num)]
    simp only [List.map_cons, List.map_nil, logSum, List.foldl_cons, List.foldl_nil, Option.bind_some,
      h1, addLog, Option.map_some, logsumlog, lt_irrefl, if_false, sub_self, Real.exp_zero, mul_one,
      sign_neg ht, SignType.coe_neg_one]
    have h2 : logAbs (1 + 1 : ℝ) = some (Real.log |1 + 1|) := by
      unfold logAbs; rw [if_neg (by norm_num)]
    have h3 : logAbs (1 + -1 : ℝ) = none := by
      unfold logAbs; rw [if_pos (by norm_num)]
    rw [h2, h3]
    rfl
  · have := mul_neg_of_pos_of_neg (Real.exp_pos (-t.1)) ht
    simp only [Fin.sum_univ_two]
    linarith

/-- Such kinetic energies occur: paths on top of a barrier. -/
example (kB T : ℝ) : ∃ (q f : Conf 1 2) (K : ℝ), (∀ x, f x = K * q x) ∧ ∀ a, tcv kB T q f a < 0 := by
  refine ⟨fun x => if x.1 = 0 then 1 else -1, fun x => (|1.5 * kB * T| + 1) * if x.1 = 0 then 1 else -1,
    |1.5 * kB * T| + 1, fun x => rfl, fun a => ?_⟩
  have := le_abs_self (1.5 * kB * T)
  have h0 := abs_nonneg (1.5 * kB * T)
  unfold tcv
  generalize |1.5 * kB * T| = K at *
  generalize 1.5 * kB * T = k at *
  simp [qc, Fin.sum_univ_succ]
  norm_num
  linarith

/-- The kinetic energy of an atom in the sums is the centroid virial one. -/
theorem tcv_kincv (names : Fin N → String) (hn : ∀ a, names a ≠ "") (q f : Conf n N) (a : Fin N) :
    kincv kB T names (.idx (a : ℕ)) q f = .ok (tcv kB T q f a) := by
  have hc : Sel.check N (.idx ((a : ℕ) : ℤ)) = .ok () := by
    simp only [Sel.check]
    rw [if_neg (by omega)]
  rw [kincv_ok names _ hc]
  have : Sel.atoms names (.idx ((a : ℕ) : ℤ)) = {a} := by
    ext i
    simp only [Sel.atoms, Sel.takes, Finset.mem_filter, Finset.mem_univ, true_and,
      Finset.mem_singleton, Bool.or_eq_true, decide_eq_true_eq, beq_iff_eq, hn i, or_false]
    rw [Fin.ext_iff]
    omega
  rw [this, Finset.sum_singleton]
  rfl

/-- **The scaled mass kinetic energy** from scaled coordinates: the weighted average is the average of
the kinetic energy of the isotope. -/
theorem smkee_sc_mean {alpha : ℝ} (ha : 0 < alpha) (a : Fin N) :
    (∫ q, Real.exp (-(scTerm kB T alpha V V f q a).1) * (scTerm kB T alpha V V f q a).2
        * boltz kB T omegan2 m V q)
      / (∫ q, Real.exp (-(scTerm kB T alpha V V f q a).1) * boltz kB T omegan2 m V q)
      = (∫ q, tcv kB T q (f q) a * boltz kB T omegan2 (isotope m alpha a) V q)
        / ∫ q, boltz kB T omegan2 (isotope m alpha a) V q := by
  have hs : √(1 / alpha) = 1 / √alpha := by rw [Real.sqrt_div zero_le_one, Real.sqrt_one]
  have h1 := integral_sc (kB := kB) (T := T) (omegan2 := omegan2) (m := m) ha a V V (fun _ => 1)
  have h2 := integral_sc (kB := kB) (T := T) (omegan2 := omegan2) (m := m) ha a V V
    (fun q => tcv kB T q (f q) a)
  simp only [one_mul] at h1
  have e : ∀ q, Real.exp (-(scTerm kB T alpha V V f q a).1)
      = Real.exp (-(1 / (kB * T * ((n + 1 : ℕ) : ℝ))) * (V (scaledAtom q a (1 / √alpha)) - V q)) := by
    intro q
    simp only [scTerm, hs]
    congr 1
    ring
  have e2 : ∀ q, (scTerm kB T alpha V V f q a).2
      = tcv kB T (scaledAtom q a (1 / √alpha)) (f (scaledAtom q a (1 / √alpha))) a := by
    intro q
    simp only [scTerm, hs]
  simp only [e, e2, h1]
  have e3 : ∀ q, Real.exp (-(1 / (kB * T * ((n + 1 : ℕ) : ℝ))) * (V (scaledAtom q a (1 / √alpha)) - V q))
        * tcv kB T (scaledAtom q a (1 / √alpha)) (f (scaledAtom q a (1 / √alpha))) a
        * boltz kB T omegan2 m V q
      = tcv kB T (scaledAtom q a (1 / √alpha)) (f (scaledAtom q a (1 / √alpha))) a
        * (Real.exp (-(1 / (kB * T * ((n + 1 : ℕ) : ℝ))) * (V (scaledAtom q a (1 / √alpha)) - V q))
          * boltz kB T omegan2 m V q) := fun q => by ring
  simp only [e3, h2]
  rw [mul_div_mul_left _ _ (Real.rpow_pos_of_pos ha _).ne']

/-- The same from the spring energies. -/
theorem smkee_td_mean (alpha : ℝ) (a : Fin N) :
    (∫ q, Real.exp (-(tdTerm kB T omegan2 m alpha q (f q) a).1) * (tdTerm kB T omegan2 m alpha q (f q) a).2
        * boltz kB T omegan2 m V q)
      / (∫ q, Real.exp (-(tdTerm kB T omegan2 m alpha q (f q) a).1) * boltz kB T omegan2 m V q)
      = (∫ q, tcv kB T q (f q) a * boltz kB T omegan2 (isotope m alpha a) V q)
        / ∫ q, boltz kB T omegan2 (isotope m alpha a) V q := by
  have e : ∀ q, Real.exp (-(tdTerm kB T omegan2 m alpha q (f q) a).1) * boltz kB T omegan2 m V q
      = boltz kB T omegan2 (isotope m alpha a) V q := by
    intro q
    rw [← boltz_td alpha a V q]
    congr 2
    simp only [tdTerm]
    ring
  have e2 : ∀ q, Real.exp (-(tdTerm kB T omegan2 m alpha q (f q) a).1)
        * (tdTerm kB T omegan2 m alpha q (f q) a).2 * boltz kB T omegan2 m V q
      = tcv kB T q (f q) a * boltz kB T omegan2 (isotope m alpha a) V q := by
    intro q
    rw [← e q]
    simp only [tdTerm]
    ring
  simp only [e, e2]

end

end Verif.Estim
