import Verif.Props.C101_Isotopes
import Mathlib.Tactic.Positivity
import Mathlib.MeasureTheory.Integral.Bochner.Set

/-!
# C101: the fourth order scaled-coordinates isotope estimator

The estimator takes into account how the squared force on the substituted atom changes when its path is
scaled, but not the change of the squared forces on the other atoms.  Two coupled oscillators with two
replicas show that its average is not the ratio of partition functions.
-/

namespace Verif.Estim

open Finset MeasureTheory

/-- Two atoms in a harmonic trap with a linear coupling of their first coordinates. -/
noncomputable def coupPots (q : Conf 1 2) (b : Fin 2) : ℝ :=
  (∑ a, ∑ d, 1 / 2 * q (b, a, d) ^ 2) + 1 / 2 * (q (b, 0, 0) * q (b, 1, 0))

/-- Their forces. -/
noncomputable def coupForce (q : Conf 1 2) : Conf 1 2 := fun x =>
  -q x - if x.2.2 = 0 then 1 / 2 * q (x.1, if x.2.1 = 0 then 1 else 0, 0) else 0

theorem coup_isForce : IsForceOf (fun q => ∑ b, coupPots q b) coupForce := by
  intro q x
  have h : ∀ y, HasDerivAt (fun t : ℝ => Function.update q x (q x + t) y) (if y = x then 1 else 0) 0 := by
    intro y
    by_cases h : y = x
    · subst h
      simpa using (hasDerivAt_id (0 : ℝ)).const_add (q y)
    · simp only [Function.update_of_ne h, if_neg h]
      exact hasDerivAt_const _ _
  unfold coupPots
  refine (HasDerivAt.fun_sum fun b _ => (HasDerivAt.fun_sum fun a _ => HasDerivAt.fun_sum fun d _ =>
    ((h (b, a, d)).fun_pow 2).const_mul (1 / 2)).add
      (((h (b, 0, 0)).fun_mul (h (b, 1, 0))).const_mul (1 / 2))).congr_deriv ?_
  obtain ⟨b, a, d⟩ := x
  fin_cases b <;> fin_cases a <;> fin_cases d <;> simp [coupForce, Fin.sum_univ_succ, Function.update] <;> ring

/-- The masses. -/
noncomputable def coupM : Fin 2 → ℝ := ![4, 1]

theorem coup_iso : isotope coupM (1 / 4) 0 = fun _ => 1 := by
  ext a
  fin_cases a
  · simp [isotope, coupM]
  · simp [isotope, coupM]

/-- The energy of the isotope. -/
noncomputable def coupU (q : Conf 1 2) : ℝ :=
  vTi 4 coupPots coupForce (fun _ => 1) q + ∑ a : Fin 2, 1 / 2 * 1 * 4 * springs q a

/-- The extension of the path of the substituted atom, and that of the other one. -/
def dx (q : Conf 1 2) : ℝ := q (1, 0, 0) - q (0, 0, 0)

def dy (q : Conf 1 2) : ℝ := q (1, 1, 0) - q (0, 1, 0)

/-- The direction in which the path of the other atom is extended. -/
def dv : Conf 1 2 := Pi.single (1, 1, 0) 1 - Pi.single (0, 1, 0) 1

theorem coupU_line (q : Conf 1 2) (t : ℝ) : coupU (q + t • dv) = coupU q
    + t * ((17 + 1 / 48 + 1 / 192) * dy q + (1 / 2 + 1 / 48) * dx q)
    + t ^ 2 * (17 + 1 / 48 + 1 / 192) := by
  have h : ∀ b a d, (q + t • dv) (b, a, d) = q (b, a, d)
      + if a = 1 ∧ d = 0 then (if b = 1 then t else -t) else 0 := by
    intro b a d
    fin_cases b <;> fin_cases a <;> fin_cases d <;> simp [dv, Pi.single_apply]
  unfold coupU vTi coupPots coupForce dx dy
  simp only [springs_cyc]
  simp only [h, Fin.sum_univ_succ, Fin.sum_univ_zero]
  simp
  ring

theorem coup_lower (m : Fin 2 → ℝ) (hm : ∀ a, 0 ≤ m a) (q : Conf 1 2) :
    1 / 4 * ‖q‖ ^ 2 - 0 ≤ vTi 4 coupPots coupForce m q := by
  have h1 : 0 ≤ ∑ a, ∑ d, ∑ b, coupForce q (b, a, d) ^ 2 / (24 * m a * 4) :=
    Finset.sum_nonneg fun a _ => Finset.sum_nonneg fun d _ => Finset.sum_nonneg fun b _ => by
      have := hm a
      positivity
  have h2 : 1 / 4 * ∑ x, q x ^ 2 ≤ ∑ b, coupPots q b := by
    unfold coupPots
    simp only [Fintype.sum_prod_type, Fin.sum_univ_succ, Fin.sum_univ_zero]
    simp
    nlinarith [sq_nonneg (q (0, 0, 0) + q (0, 1, 0)), sq_nonneg (q (1, 0, 0) + q (1, 1, 0)),
      sq_nonneg (q (0, 0, 1)), sq_nonneg (q (0, 0, 2)), sq_nonneg (q (0, 1, 1)), sq_nonneg (q (0, 1, 2)),
      sq_nonneg (q (1, 0, 1)), sq_nonneg (q (1, 0, 2)), sq_nonneg (q (1, 1, 1)), sq_nonneg (q (1, 1, 2))]
  have h3 : ‖q‖ ^ 2 ≤ ∑ x, q x ^ 2 := by
    have h2 : ‖q‖ ≤ √(∑ x, q x ^ 2) := by
      rw [pi_norm_le_iff_of_nonneg (Real.sqrt_nonneg _)]
      intro x
      rw [Real.norm_eq_abs]
      exact Real.abs_le_sqrt (Finset.single_le_sum (f := fun x => q x ^ 2)
        (fun y _ => sq_nonneg _) (Finset.mem_univ x))
    calc ‖q‖ ^ 2 ≤ √(∑ x, q x ^ 2) ^ 2 := pow_le_pow_left₀ (norm_nonneg q) h2 2
      _ = ∑ x, q x ^ 2 := Real.sq_sqrt (Finset.sum_nonneg fun _ _ => sq_nonneg _)
  unfold vTi
  linarith

theorem coup_cont (m : Fin 2 → ℝ) : Continuous (vTi 4 coupPots coupForce m) := by
  unfold vTi coupPots coupForce
  have : ∀ x : Fin 2 × Fin 2 × Fin 3, Continuous fun q : Conf 1 2 =>
      -q x - if x.2.2 = 0 then 1 / 2 * q (x.1, if x.2.1 = 0 then 1 else 0, 0) else 0 := by
    intro x
    split <;> fun_prop
  fun_prop

theorem coup_averages (m : Fin 2 → ℝ) (hm : ∀ a, 0 ≤ m a) :
    Averages (boltz 1 1 4 m (vTi 4 coupPots coupForce m)) (fun _ _ => 0) :=
  averages_confining (by norm_num) (by norm_num) hm (coup_cont m) (fun x => continuous_const)
    (c := 1 / 4) (D := 0) (C := 0) (k := 0) (by norm_num) (coup_lower m hm) (by simp)

/-- The distribution of the isotope. -/
noncomputable def coupRho : Conf 1 2 → ℝ := boltz 1 1 4 (fun _ => 1) (vTi 4 coupPots coupForce fun _ => 1)

theorem coupRho_eq (q : Conf 1 2) : coupRho q = Real.exp (-coupU q / 2) := by
  unfold coupRho coupU
  rw [boltz_eq]
  norm_num

theorem coupRho_deriv (q : Conf 1 2) : HasLineDerivAt ℝ coupRho
    (-(((17 + 1 / 48 + 1 / 192) * dy q + (1 / 2 + 1 / 48) * dx q) / 2) * coupRho q) q dv := by
  unfold HasLineDerivAt
  simp only [coupRho_eq, coupU_line]
  have h1 : HasDerivAt (fun t : ℝ => coupU q
      + t * ((17 + 1 / 48 + 1 / 192) * dy q + (1 / 2 + 1 / 48) * dx q)
      + t ^ 2 * (17 + 1 / 48 + 1 / 192)) ((17 + 1 / 48 + 1 / 192) * dy q + (1 / 2 + 1 / 48) * dx q) 0 := by
    refine ((((hasDerivAt_id (0 : ℝ)).mul_const _).const_add _).add
      (((hasDerivAt_id (0 : ℝ)).pow 2).mul_const _)).congr_deriv ?_
    simp
  refine ((h1.neg.div_const 2).exp).congr_deriv ?_
  simp
  ring

theorem coup_int (x y : Fin 2 × Fin 2 × Fin 3) : Integrable fun q => q x * q y * coupRho q :=
  (coup_averages (fun _ => 1) fun _ => zero_le_one).pos2 x y

theorem coup_int_xy : Integrable fun q => dx q * dy q * coupRho q := by
  have h : (fun q : Conf 1 2 => dx q * dy q * coupRho q) = fun q =>
      q (1, 0, 0) * q (1, 1, 0) * coupRho q - q (1, 0, 0) * q (0, 1, 0) * coupRho q
        - (q (0, 0, 0) * q (1, 1, 0) * coupRho q - q (0, 0, 0) * q (0, 1, 0) * coupRho q) := by
    funext q
    unfold dx dy
    ring
  rw [h]
  exact ((coup_int _ _).sub (coup_int _ _)).sub ((coup_int _ _).sub (coup_int _ _))

theorem coup_int_xx : Integrable fun q => dx q ^ 2 * coupRho q := by
  have h : (fun q : Conf 1 2 => dx q ^ 2 * coupRho q) = fun q =>
      q (1, 0, 0) * q (1, 0, 0) * coupRho q - q (1, 0, 0) * q (0, 0, 0) * coupRho q
        - (q (0, 0, 0) * q (1, 0, 0) * coupRho q - q (0, 0, 0) * q (0, 0, 0) * coupRho q) := by
    funext q
    unfold dx
    ring
  rw [h]
  exact ((coup_int _ _).sub (coup_int _ _)).sub ((coup_int _ _).sub (coup_int _ _))

theorem coup_int_x : Integrable fun q => dx q * coupRho q := by
  have hA := coup_averages (fun _ => 1) fun _ => zero_le_one
  have h : (fun q : Conf 1 2 => dx q * coupRho q) = fun q =>
      q (1, 0, 0) * coupRho q - q (0, 0, 0) * coupRho q := by
    funext q
    unfold dx
    ring
  rw [h]
  exact (hA.pos _).sub (hA.pos _)

/-- The correlation of the two extensions. -/
theorem coup_corr : (17 + 1 / 48 + 1 / 192) * (∫ q, dx q * dy q * coupRho q)
    + (1 / 2 + 1 / 48) * ∫ q, dx q ^ 2 * coupRho q = 0 := by
  have e1 : (fun q : Conf 1 2 => dx q
      * (-(((17 + 1 / 48 + 1 / 192) * dy q + (1 / 2 + 1 / 48) * dx q) / 2) * coupRho q))
      = fun q => (-1 / 2) * ((17 + 1 / 48 + 1 / 192) * (dx q * dy q * coupRho q)
        + (1 / 2 + 1 / 48) * (dx q ^ 2 * coupRho q)) := by
    funext q
    ring
  have hi : Integrable fun q => (17 + 1 / 48 + 1 / 192) * (dx q * dy q * coupRho q)
        + (1 / 2 + 1 / 48) * (dx q ^ 2 * coupRho q) :=
    (coup_int_xy.const_mul _).add (coup_int_xx.const_mul _)
  have key := integral_bilinear_hasLineDerivAt_right_eq_neg_left_of_integrable
    (μ := (volume : Measure (Conf 1 2))) (B := ContinuousLinearMap.mul ℝ ℝ)
    (f := dx) (f' := fun _ => 0) (g := coupRho)
    (g' := fun q => -(((17 + 1 / 48 + 1 / 192) * dy q + (1 / 2 + 1 / 48) * dx q) / 2) * coupRho q)
    (v := dv)
    (by simp)
    (by
      simp only [ContinuousLinearMap.mul_apply']
      rw [e1]
      exact hi.const_mul _)
    (by
      simp only [ContinuousLinearMap.mul_apply']
      exact coup_int_x)
    (fun q _ => by
      unfold HasLineDerivAt
      have : ∀ t : ℝ, dx (q + t • dv) = dx q := by
        intro t
        simp [dx, dv, Pi.single_apply]
      simp only [this]
      exact hasDerivAt_const _ _)
    (fun q _ => coupRho_deriv q)
  simp only [ContinuousLinearMap.mul_apply'] at key
  rw [e1, integral_const_mul, integral_add (coup_int_xy.const_mul _) (coup_int_xx.const_mul _),
    integral_const_mul, integral_const_mul] at key
  simp only [zero_mul, integral_zero, neg_zero] at key
  linarith

theorem coup_xx_pos : 0 < ∫ q, dx q ^ 2 * coupRho q := by
  refine integral_pos_of_integrable_nonneg_nonzero (x := Pi.single (1, 0, 0) 1) ?_ coup_int_xx ?_ ?_
  · have : Continuous coupRho := by
      unfold coupRho boltz
      have := coup_cont fun _ => 1
      fun_prop
    unfold dx
    fun_prop
  · intro q
    exact mul_nonneg (sq_nonneg _) (Real.exp_pos _).le
  · have : coupRho (Pi.single (1, 0, 0) 1) ≠ 0 := (Real.exp_pos _).ne'
    simp [dx, this]

/-- What is missing in the exponent, in terms of the scaled path. -/
noncomputable def coupMiss (q : Conf 1 2) : ℝ := (8 * (dx q * dy q) + 3 * dx q ^ 2) / 3072

/-- The factor that is missing changes the integral. -/
theorem coup_ne : ∫ q, Real.exp (coupMiss q / 2) * coupRho q ≠ ∫ q, coupRho q := by
  have hA := coup_averages (fun _ => 1) fun _ => zero_le_one
  by_cases hi : Integrable fun q => Real.exp (coupMiss q / 2) * coupRho q
  · apply ne_of_gt
    have i2 : Integrable fun q => coupMiss q / 2 * coupRho q := by
      have h : (fun q : Conf 1 2 => coupMiss q / 2 * coupRho q) = fun q =>
          (8 / 6144) * (dx q * dy q * coupRho q) + (3 / 6144) * (dx q ^ 2 * coupRho q) := by
        funext q
        unfold coupMiss
        ring
      rw [h]
      exact (coup_int_xy.const_mul _).add (coup_int_xx.const_mul _)
    have h1 : ∫ q, (coupRho q + coupMiss q / 2 * coupRho q) ≤ ∫ q, Real.exp (coupMiss q / 2) * coupRho q := by
      refine integral_mono (hA.one.add i2) hi fun q => ?_
      have := Real.add_one_le_exp (coupMiss q / 2)
      have h0 : 0 < coupRho q := Real.exp_pos _
      simp only
      nlinarith
    refine lt_of_lt_of_le ?_ h1
    have h2 : ∫ q, (coupRho q + coupMiss q / 2 * coupRho q) = (∫ q, coupRho q)
        + ∫ q, coupMiss q / 2 * coupRho q := integral_add hA.one i2
    rw [h2]
    have h3 : ∫ q, coupMiss q / 2 * coupRho q = (8 / 6144) * (∫ q, dx q * dy q * coupRho q)
        + (3 / 6144) * ∫ q, dx q ^ 2 * coupRho q := by
      rw [← integral_const_mul, ← integral_const_mul, ← integral_add (coup_int_xy.const_mul _)
        (coup_int_xx.const_mul _)]
      congr 1
      funext q
      unfold coupMiss
      ring
    have h4 := coup_corr
    have h5 := coup_xx_pos
    rw [h3]
    linarith
  · rw [integral_undef hi]
    exact (boltz_integral_pos hA.one).ne

/-- The estimator at a configuration, and the isotope at the scaled path. -/
theorem coup_point (q : Conf 1 2) :
    Real.exp (-(1 / (1 * 1 * ((1 + 1 : ℕ) : ℝ))) * (((∑ b, coupPots (scaledAtom q 0 (1 / √(1 / 4))) b)
        - ∑ b, coupPots q b)
      + (∑ d, ∑ b, (coupForce (scaledAtom q 0 (1 / √(1 / 4))) (b, 0, d) ^ 2 / (1 / 4)
        - coupForce q (b, 0, d) ^ 2)) * (1 / coupM 0 * (1 / 24) / 4)))
      * boltz 1 1 4 coupM (vTi 4 coupPots coupForce coupM) q
    = Real.exp (coupMiss (scaledAtom q 0 (1 / √(1 / 4))) / 2) * coupRho (scaledAtom q 0 (1 / √(1 / 4))) := by
  have h := boltz_sc (kB := 1) (T := 1) (omegan2 := 4) (m := coupM) (alpha := 1 / 4) (by norm_num) 0
    (vTi 4 coupPots coupForce coupM) (vTi 4 coupPots coupForce (isotope coupM (1 / 4) 0)) q
  rw [← scaledAtom_eq] at h
  rw [coup_iso] at h
  change _ = coupRho _ at h
  rw [← h, ← mul_assoc, ← Real.exp_add]
  congr 2
  have hs : (1 : ℝ) / √(1 / 4) = 2 := by
    rw [show (1 : ℝ) / 4 = (1 / 2) ^ 2 by norm_num, Real.sqrt_sq (by norm_num)]
    norm_num
  rw [hs]
  unfold coupMiss vTi coupPots coupForce dx dy scaledAtom qc coupM
  simp only [Fin.sum_univ_succ, Fin.sum_univ_zero]
  simp
  ring

/-- **The fourth order scaled-coordinates estimator is wrong for interacting atoms**: for two coupled
oscillators its reweighted average is not the ratio of the Takahashi-Imada partition functions. -/
theorem zetasc4_wrong : ∃ ti : Conf 1 2 → ℝ,
    (∀ q, ∃ x y, zetasc4 1 1 4 coupM (fun _ => "H") (1 / 4) (.idx 0) coupPots coupPots coupForce coupForce q
      = .ok (x, ti q, y)) ∧
    (∫ q, ti q * (tiWeight 1 1 4 coupM (coupForce q) * boltz 1 1 4 coupM (fun q => ∑ b, coupPots q b) q))
      / (∫ q, tiWeight 1 1 4 coupM (coupForce q) * boltz 1 1 4 coupM (fun q => ∑ b, coupPots q b) q)
      ≠ isoRatio 1 1 4 coupM (1 / 4) {0} (vTi 4 coupPots coupForce) := by
  have hat : Sel.atoms (fun _ : Fin 2 => "H") (.idx 0) = {0} := by
    ext i
    fin_cases i <;> simp [Sel.atoms, Sel.takes]
  refine ⟨_, fun q => ⟨_, _, zetasc4_ok (by norm_num) (1 / 4) (fun _ => "H") (.idx 0) rfl
    (by rw [hat]; simp) coupPots coupForce q⟩, ?_⟩
  simp only [tiWeight_mean]
  rw [hat]
  simp only [Finset.sum_singleton, Finset.card_singleton, Nat.cast_one, div_one]
  rw [integral_congr_ae (Filter.Eventually.of_forall coup_point)]
  have hZ := boltz_integral_pos (coup_averages coupM (fun a => by fin_cases a <;> simp [coupM])).one
  have hf : (0 : ℝ) < (1 / 4 : ℝ) ^ ((3 : ℝ) / 2 * (1 : ℕ)) := Real.rpow_pos_of_pos (by norm_num) _
  have h := integral_scale (n := 1) (update_pos (N := 2) (alpha := 1 / 4) (by norm_num) 0)
    fun q => Real.exp (coupMiss q / 2) * coupRho q
  rw [free_factor (by norm_num), free_eq] at h
  simp only [← scaledAtom_eq] at h
  have h' : ∫ q, Real.exp (coupMiss (scaledAtom q 0 (1 / √(1 / 4))) / 2)
        * coupRho (scaledAtom q 0 (1 / √(1 / 4)))
      = (1 / 4 : ℝ) ^ ((3 : ℝ) / 2 * (1 : ℕ)) * ∫ q, Real.exp (coupMiss q / 2) * coupRho q := by
    rw [← h, mul_inv_cancel_left₀ hf.ne']
  rw [h']
  simp only [isoRatio, Finset.sum_singleton, Finset.card_singleton, Nat.cast_one, div_one, coup_iso]
  rw [mul_div_assoc]
  intro he
  rw [Nat.cast_one] at hf
  have h1 := mul_left_cancel₀ hf.ne' he
  rw [div_left_inj' hZ.ne'] at h1
  exact coup_ne h1

end Verif.Estim
