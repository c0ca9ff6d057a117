import Verif.Props.C103_Heat

/-!
# C106: energies as derivatives of the partition function

The derivatives of the logarithm of the partition function with respect to the masses and to the
strength of the potential.
-/

namespace Verif.Estim

open Finset MeasureTheory Topology

section
variable {n N : ℕ} {h h1 h2 : ℝ → Conf n N → ℝ} {kB hbar T : ℝ} {m : Fin N → ℝ}

/-- A function that does not depend on the parameter. -/
theorem nice_const {A : Conf n N → ℝ} (hA : Smooth A) : Nice (fun _ => A) (fun _ _ => 0) (fun _ _ => 0) where
  d1 _ _ _ := hasDerivAt_const _ _
  d2 _ _ _ := hasDerivAt_const _ _
  c0 _ _ := hA.diff.continuous
  c1 _ _ := continuous_const
  c2 _ _ := continuous_const
  bound := by
    obtain ⟨C, hC, k, hb⟩ := hA.bound
    refine ⟨C, hC, k, fun s _ q => ⟨(hb q).1, ?_, ?_⟩⟩ <;>
    · rw [abs_zero]
      positivity

theorem springS_cont : Continuous (springS kB hbar T m : Conf n N → ℝ) := by
  unfold springS springs
  fun_prop

theorem springS_nonneg (hk : 0 < kB * T) (hm : ∀ a, 0 < m a) (q : Conf n N) : 0 ≤ springS kB hbar T m q := by
  unfold springS
  refine div_nonneg (Finset.sum_nonneg fun a _ => ?_) (by positivity)
  have h1 := (hm a).le
  have h2 : 0 ≤ springs q a := by
    unfold springs
    positivity
  positivity

theorem boltz_springS (hk : 0 < kB * T) (hh : hbar ≠ 0) (U : Conf n N → ℝ) (q : Conf n N) :
    boltz kB T ((((n + 1 : ℕ) : ℝ) * kB * T / hbar) ^ 2) m U q
      = Real.exp (-(1 / (kB * T) * (U q / ((n + 1 : ℕ) : ℝ))) - springS kB hbar T m q) := by
  have hP : ((n + 1 : ℕ) : ℝ) ≠ 0 := by positivity
  have := hk.ne'
  rw [boltz_eq]
  unfold springS
  congr 1
  generalize ∑ a, 1 / 2 * m a * ((((n + 1 : ℕ) : ℝ) * kB * T / hbar) ^ 2) * springs q a = S
  field_simp
  ring

theorem mean_const_add {W g : Conf n N → ℝ} (hW : Integrable W) (hg : Integrable fun q => g q * W q)
    (h0 : ∫ q, W q ≠ 0) (c : ℝ) : mean W (fun q => c + g q) = c + mean W g := by
  unfold mean
  simp only [add_mul]
  rw [integral_add (hW.const_mul c) hg, integral_const_mul]
  field_simp

theorem mean_add {W g g' : Conf n N → ℝ} (hg : Integrable fun q => g q * W q)
    (hg' : Integrable fun q => g' q * W q) : mean W (fun q => g q + g' q) = mean W g + mean W g' := by
  unfold mean
  simp only [add_mul]
  rw [integral_add hg hg', add_div]

/-- The averages of the derivatives exist. -/
theorem mean_ok (hk : 0 < kB * T) (hh : hbar ≠ 0) (hm : ∀ a, 0 < m a) {U : Conf n N → ℝ}
    (hN : Nice h h1 h2) (hC : Confined h) (h0 : ∀ q, h 0 q = U q / ((n + 1 : ℕ) : ℝ)) :
    Integrable (boltz kB T ((((n + 1 : ℕ) : ℝ) * kB * T / hbar) ^ 2) m U) ∧
    (0 < ∫ q, boltz kB T ((((n + 1 : ℕ) : ℝ) * kB * T / hbar) ^ 2) m U q) ∧
    ∀ g : Conf n N → ℝ, Continuous g → (∃ C : ℝ, ∃ k : ℕ, ∀ q, |g q| ≤ C * (1 + ‖q‖) ^ k) →
      Integrable fun q => g q * boltz kB T ((((n + 1 : ℕ) : ℝ) * kB * T / hbar) ^ 2) m U q := by
  have hs0 : (0 : ℝ) ∈ Set.Ioo (-1 / 2 : ℝ) (1 / 2) := by constructor <;> norm_num
  have hb : 0 < 1 / (kB * T) := by positivity
  have hS := springS_cont (n := n) (kB := kB) (hbar := hbar) (T := T) (m := m)
  have hS0 := fun q : Conf n N => springS_nonneg (hbar := hbar) hk hm q
  have e : (boltz kB T ((((n + 1 : ℕ) : ℝ) * kB * T / hbar) ^ 2) m U)
      = fun q => Real.exp (-(1 / (kB * T) * h 0 q) - springS kB hbar T m q) := by
    funext q
    rw [boltz_springS hk hh, h0]
  rw [e]
  refine ⟨integrable_weight hb hN hC hS hS0 hs0, integral_exp_pos (integrable_weight hb hN hC hS hS0 hs0),
    fun g hg ⟨C, k, hgb⟩ => integrable_poly hb hN hC hS hS0 hs0 hg hgb⟩

/-- The derivative of the logarithm of an integral over paths. -/
theorem log_deriv (hk : 0 < kB * T) (hh : hbar ≠ 0) (hm : ∀ a, 0 < m a) {U : Conf n N → ℝ}
    (hN : Nice h h1 h2) (hC : Confined h) (h0 : ∀ q, h 0 q = U q / ((n + 1 : ℕ) : ℝ)) :
    HasDerivAt (fun s => Real.log (∫ q, Real.exp (-(1 / (kB * T) * h s q) - springS kB hbar T m q)))
      (-(1 / (kB * T)) * mean (boltz kB T ((((n + 1 : ℕ) : ℝ) * kB * T / hbar) ^ 2) m U) (h1 0)) 0 := by
  have hs0 : (0 : ℝ) ∈ Set.Ioo (-1 / 2 : ℝ) (1 / 2) := by constructor <;> norm_num
  have hb : 0 < 1 / (kB * T) := by positivity
  have hS := springS_cont (n := n) (kB := kB) (hbar := hbar) (T := T) (m := m)
  have hS0 := fun q : Conf n N => springS_nonneg (hbar := hbar) hk hm q
  have i0 := integral_exp_pos (integrable_weight hb hN hC hS hS0 hs0)
  have := (hasDerivAt_I hb hN hC hS hS0 hs0).log i0.ne'
  refine this.congr_deriv ?_
  unfold mean
  simp only [boltz_springS hk hh, ← h0]
  ring

/-- The partition function with other masses. -/
theorem partition_mass (hk : 0 < kB * T) (hkB : 0 < kB) (hh : hbar ≠ 0) (hm : ∀ a, 0 < m a)
    (U : Conf n N → ℝ) {s : ℝ} (hs : 0 < 1 + s) :
    partition kB hbar (fun a => 1 / (1 + s) * m a) (fun _ => U) T
      = (∏ a, (m a * ((n + 1 : ℕ) : ℝ) * kB * T / (2 * Real.pi * hbar ^ 2))
          ^ ((3 : ℝ) / 2 * ((n + 1 : ℕ) : ℝ)))
        * (1 + s) ^ (-((3 : ℝ) / 2 * N))
        * ∫ q, Real.exp (-((1 / (kB * T)) * (U (scaled q √(1 + s)) / ((n + 1 : ℕ) : ℝ)))
          - springS kB hbar T m q) := by
  have e := partition_scaled hk hkB hh (fun a => (hm a).le) (fun _ q => U q / (1 + s)) hs
  have e1 : ∀ q, hOf T (fun _ q => U q / (1 + s)) s q = U (scaled q √(1 + s)) / ((n + 1 : ℕ) : ℝ) := by
    intro q
    unfold hOf
    field_simp
  simp only [e1] at e
  rw [← e]
  have hT : 0 < T := (pos_iff_pos_of_mul_pos hk).1 hkB
  unfold partition
  congr 1
  · refine Finset.prod_congr rfl fun a _ => ?_
    congr 1
    field_simp
  · refine integral_congr_ae (Filter.Eventually.of_forall fun q => ?_)
    simp only [boltz_eq]
    congr 1
    have e2 : ∑ a, 1 / 2 * (1 / (1 + s) * m a) * (((n + 1 : ℕ) : ℝ) * kB * T / hbar) ^ 2 * springs q a
        = (1 + s) * ∑ a, 1 / 2 * m a * (((n + 1 : ℕ) : ℝ) * kB * (T / (1 + s)) / hbar) ^ 2 * springs q a := by
      rw [Finset.mul_sum]
      refine Finset.sum_congr rfl fun a _ => ?_
      field_simp
    rw [e2]
    generalize ∑ a, 1 / 2 * m a * (((n + 1 : ℕ) : ℝ) * kB * (T / (1 + s)) / hbar) ^ 2 * springs q a = S
    field_simp

/-- Change of all the masses by a factor: `U mu` is the potential for the factor `mu`. -/
theorem mass_deriv (hkB : 0 < kB) (hT : 0 < T) (hh : hbar ≠ 0) (hm : ∀ a, 0 < m a) (U : ℝ → Conf n N → ℝ)
    (hN : Nice (fun s q => U (1 / (1 + s)) (scaled q √(1 + s)) / ((n + 1 : ℕ) : ℝ)) h1 h2)
    (hC : Confined fun s q => U (1 / (1 + s)) (scaled q √(1 + s)) / ((n + 1 : ℕ) : ℝ)) :
    HasDerivAt (fun mu => Real.log (partition kB hbar (fun a => mu * m a) (fun _ => U mu) T))
      (mean (boltz kB T ((((n + 1 : ℕ) : ℝ) * kB * T / hbar) ^ 2) m (U 1))
        (fun q => 3 / 2 * N * (kB * T) + h1 0 q) / (kB * T)) 1 := by
  have hk : 0 < kB * T := mul_pos hkB hT
  have h0 : ∀ q : Conf n N, U (1 / (1 + 0)) (scaled q √(1 + 0)) / ((n + 1 : ℕ) : ℝ)
      = U 1 q / ((n + 1 : ℕ) : ℝ) := by
    intro q
    have : scaled q √(1 + 0) = q := by
      ext x
      simp [scaled]
    rw [this, add_zero, div_one]
  have d1 := log_deriv (U := U 1) hk hh hm hN hC h0
  obtain ⟨i0, i1, i2⟩ := mean_ok (U := U 1) hk hh hm hN hC h0
  have hs0 : (0 : ℝ) ∈ Set.Ioo (-1 / 2 : ℝ) (1 / 2) := by constructor <;> norm_num
  obtain ⟨C, -, k, hbd⟩ := hN.bound
  rw [mean_const_add i0 (i2 _ (hN.c1 0 hs0) ⟨C, k, fun q => (hbd 0 hs0 q).2.1⟩) i1.ne']
  set I : ℝ → ℝ := fun s => ∫ q, Real.exp (-(1 / (kB * T) * (U (1 / (1 + s)) (scaled q √(1 + s))
    / ((n + 1 : ℕ) : ℝ))) - springS kB hbar T m q) with hI
  set K := ∏ a, (m a * ((n + 1 : ℕ) : ℝ) * kB * T / (2 * Real.pi * hbar ^ 2))
    ^ ((3 : ℝ) / 2 * ((n + 1 : ℕ) : ℝ)) with hK
  have hKpos : 0 < K := Finset.prod_pos fun a _ => by
    have := hm a
    have := Real.pi_pos
    positivity
  have hS := springS_cont (n := n) (kB := kB) (hbar := hbar) (T := T) (m := m)
  have hS0 := fun q : Conf n N => springS_nonneg (hbar := hbar) hk hm q
  have hIpos : ∀ s ∈ Set.Ioo (-1 / 2 : ℝ) (1 / 2), 0 < I s := fun s hs =>
    integral_exp_pos (integrable_weight (by positivity) hN hC hS hS0 hs)
  have hZ : ∀ᶠ mu in 𝓝 (1 : ℝ), Real.log (partition kB hbar (fun a => mu * m a) (fun _ => U mu) T)
      = Real.log K + (3 / 2 * N) * Real.log mu + Real.log (I (1 / mu - 1)) := by
    have c : ContinuousAt (fun t : ℝ => 1 / t - 1) 1 :=
      ContinuousAt.sub (ContinuousAt.div continuousAt_const continuousAt_id one_ne_zero) continuousAt_const
    have h0 : (1 : ℝ) / 1 - 1 ∈ Set.Ioo (-1 / 2 : ℝ) (1 / 2) := by constructor <;> norm_num
    filter_upwards [lt_mem_nhds one_pos, c (isOpen_Ioo.mem_nhds h0)] with mu h2 hs
    have h3 : 0 < 1 + (1 / mu - 1) := by
      have : 0 < 1 / mu := by positivity
      linarith
    have e := partition_mass hk hkB hh hm (U mu) h3
    have e2 : 1 / (1 + (1 / mu - 1)) = mu := by rw [add_sub_cancel, one_div_one_div]
    rw [e2] at e
    have e3 : I (1 / mu - 1) = ∫ q, Real.exp (-((1 / (kB * T)) * (U mu (scaled q √(1 + (1 / mu - 1)))
        / ((n + 1 : ℕ) : ℝ))) - springS kB hbar T m q) := by
      simp only [hI, e2]
    rw [e, ← e3, Real.log_mul (by positivity) (hIpos _ hs).ne', Real.log_mul hKpos.ne'
      (Real.rpow_pos_of_pos h3 _).ne', Real.log_rpow h3]
    have e4 : Real.log (1 + (1 / mu - 1)) = -Real.log mu := by
      rw [add_sub_cancel, one_div, Real.log_inv]
    rw [e4]
    ring
  have ds : HasDerivAt (fun t : ℝ => 1 / t - 1) (-1) 1 := by
    have := ((hasDerivAt_const (1 : ℝ) (1 : ℝ)).div (hasDerivAt_id 1) one_ne_zero).sub_const 1
    refine this.congr_deriv ?_
    simp
  have d1' : HasDerivAt (fun s => Real.log (I s))
      (-(1 / (kB * T)) * mean (boltz kB T ((((n + 1 : ℕ) : ℝ) * kB * T / hbar) ^ 2) m (U 1)) (h1 0))
      ((fun t : ℝ => 1 / t - 1) 1) := by
    have e : (fun t : ℝ => 1 / t - 1) 1 = 0 := by norm_num
    rw [e]
    exact d1
  have d2 := HasDerivAt.comp (h₂ := fun s => Real.log (I s)) (h := fun t : ℝ => 1 / t - 1) 1 d1' ds
  have d3 := (((Real.hasDerivAt_log (one_ne_zero (α := ℝ))).const_mul (3 / 2 * (N : ℝ))).const_add
    (Real.log K)).fun_add d2
  refine (d3.congr_of_eventuallyEq hZ).congr_deriv ?_
  field_simp

/-- Change of the strength of the potential by a factor: `U lam` is the potential for the factor
`lam`. -/
theorem coupling_deriv (hkB : 0 < kB) (hT : 0 < T) (hh : hbar ≠ 0) (hm : ∀ a, 0 < m a)
    (U : ℝ → Conf n N → ℝ) (hN : Nice (fun s q => U (1 + s) q / ((n + 1 : ℕ) : ℝ)) h1 h2)
    (hC : Confined fun s q => U (1 + s) q / ((n + 1 : ℕ) : ℝ)) :
    HasDerivAt (fun lam => Real.log (partition kB hbar m (fun _ => U lam) T))
      (-(1 / (kB * T))
        * mean (boltz kB T ((((n + 1 : ℕ) : ℝ) * kB * T / hbar) ^ 2) m (U 1)) (h1 0)) 1 := by
  have hk : 0 < kB * T := mul_pos hkB hT
  have d1 := log_deriv (U := U 1) hk hh hm hN hC fun q => by rw [add_zero]
  set I : ℝ → ℝ := fun s => ∫ q, Real.exp (-(1 / (kB * T) * (U (1 + s) q / ((n + 1 : ℕ) : ℝ)))
    - springS kB hbar T m q) with hI
  set K := ∏ a, (m a * ((n + 1 : ℕ) : ℝ) * kB * T / (2 * Real.pi * hbar ^ 2))
    ^ ((3 : ℝ) / 2 * ((n + 1 : ℕ) : ℝ)) with hK
  have hKpos : 0 < K := Finset.prod_pos fun a _ => by
    have := hm a
    have := Real.pi_pos
    positivity
  have hS := springS_cont (n := n) (kB := kB) (hbar := hbar) (T := T) (m := m)
  have hS0 := fun q : Conf n N => springS_nonneg (hbar := hbar) hk hm q
  have hZ : ∀ᶠ lam in 𝓝 (1 : ℝ), Real.log (partition kB hbar m (fun _ => U lam) T)
      = Real.log K + Real.log (I (lam - 1)) := by
    have c : ContinuousAt (fun t : ℝ => t - 1) 1 := continuousAt_id.sub continuousAt_const
    have h0 : (1 : ℝ) - 1 ∈ Set.Ioo (-1 / 2 : ℝ) (1 / 2) := by constructor <;> norm_num
    filter_upwards [c (isOpen_Ioo.mem_nhds h0)] with lam hs
    have hi : 0 < I (lam - 1) := integral_exp_pos (integrable_weight (by positivity) hN hC hS hS0 hs)
    unfold partition
    simp only [boltz_springS hk hh]
    have e : (∫ q, Real.exp (-(1 / (kB * T) * (U lam q / ((n + 1 : ℕ) : ℝ))) - springS kB hbar T m q))
        = I (lam - 1) := by simp only [hI, add_sub_cancel]
    rw [e, Real.log_mul hKpos.ne' hi.ne']
  have ds : HasDerivAt (fun t : ℝ => t - 1) 1 1 := (hasDerivAt_id 1).sub_const 1
  have d1' : HasDerivAt (fun s => Real.log (I s))
      (-(1 / (kB * T)) * mean (boltz kB T ((((n + 1 : ℕ) : ℝ) * kB * T / hbar) ^ 2) m (U 1)) (h1 0))
      ((fun t : ℝ => t - 1) 1) := by
    have e : (fun t : ℝ => t - 1) 1 = 0 := by norm_num
    rw [e]
    exact d1
  have d2 := (HasDerivAt.comp (h₂ := fun s => Real.log (I s)) (h := fun t : ℝ => t - 1) 1 d1' ds).const_add
    (Real.log K)
  refine (d2.congr_of_eventuallyEq hZ).congr_deriv ?_
  ring

/-! ### Two smooth functions -/

theorem confined_pair {A B : Conf n N → ℝ} {c D : ℝ} (hc : 0 < c) (hl : ∀ q, c * ‖q‖ ^ 2 - D ≤ A q)
    (hB : ∀ q, 0 ≤ B q) {p r : ℝ → ℝ} {p0 p1 : ℝ} (hp0 : 0 < p0)
    (hp : ∀ s ∈ Set.Ioo (-1 / 2 : ℝ) (1 / 2), p0 ≤ p s ∧ p s ≤ p1 ∧ 0 ≤ r s) :
    Confined fun s q => p s * along A s q + r s * along B s q := by
  refine ⟨p0 * (c / 9), by positivity, p1 * |D|, fun s hs q => ?_⟩
  obtain ⟨h0, hr1, hr2⟩ := sqrt_range hs
  obtain ⟨hp1, hp2, hr⟩ := hp s hs
  have e1 := hl (scaled q √(1 + s))
  have e2 := scaled_ge hr1 hr2 q
  have e3 : ‖q‖ ^ 2 ≤ (3 * ‖scaled q √(1 + s)‖) ^ 2 := pow_le_pow_left₀ (norm_nonneg q) e2 2
  have e4 : c / 9 * ‖q‖ ^ 2 - |D| ≤ along A s q := by
    have := le_abs_self D
    unfold along
    nlinarith
  have e5 : 0 ≤ r s * along B s q := mul_nonneg hr (hB _)
  have e6 : p s * (c / 9 * ‖q‖ ^ 2 - |D|) ≤ p s * along A s q :=
    mul_le_mul_of_nonneg_left e4 (hp0.le.trans hp1)
  have e7 : p0 * (c / 9 * ‖q‖ ^ 2) ≤ p s * (c / 9 * ‖q‖ ^ 2) :=
    mul_le_mul_of_nonneg_right hp1 (by positivity)
  have e8 : p s * |D| ≤ p1 * |D| := mul_le_mul_of_nonneg_right hp2 (abs_nonneg D)
  rw [mul_sub] at e6
  linarith

theorem confined_pair0 {A B : Conf n N → ℝ} {c D : ℝ} (hc : 0 < c) (hl : ∀ q, c * ‖q‖ ^ 2 - D ≤ A q)
    (hB : ∀ q, 0 ≤ B q) {p r : ℝ → ℝ} {p0 p1 : ℝ} (hp0 : 0 < p0)
    (hp : ∀ s ∈ Set.Ioo (-1 / 2 : ℝ) (1 / 2), p0 ≤ p s ∧ p s ≤ p1 ∧ 0 ≤ r s) :
    Confined fun s q => p s * A q + r s * B q := by
  refine ⟨p0 * c, by positivity, p1 * |D|, fun s hs q => ?_⟩
  obtain ⟨hp1, hp2, hr⟩ := hp s hs
  have e4 : c * ‖q‖ ^ 2 - |D| ≤ A q := by
    have := le_abs_self D
    have := hl q
    linarith
  have e5 : 0 ≤ r s * B q := mul_nonneg hr (hB _)
  have e6 : p s * (c * ‖q‖ ^ 2 - |D|) ≤ p s * A q := mul_le_mul_of_nonneg_left e4 (hp0.le.trans hp1)
  have e7 : p0 * (c * ‖q‖ ^ 2) ≤ p s * (c * ‖q‖ ^ 2) := mul_le_mul_of_nonneg_right hp1 (by positivity)
  have e8 : p s * |D| ≤ p1 * |D| := mul_le_mul_of_nonneg_right hp2 (abs_nonneg D)
  rw [mul_sub] at e6
  linarith

/-! ### Ordinary path integrals -/

variable {V : Conf n N → ℝ} {f : Conf n N → Conf n N}

/-- **The centroid virial kinetic energy averages to the derivative with respect to the masses**, times
`kB T`. -/
theorem kincv_mass (hkB : 0 < kB) (hT : 0 < T) (hh : hbar ≠ 0) (hm : ∀ a, 0 < m a)
    (hV : Smooth V) (hf : IsForceOf V f) {a D : ℝ} (ha : 0 < a) (hl : ∀ q, a * ‖q‖ ^ 2 - D ≤ V q)
    (names : Fin N → String) :
    ∃ K : Conf n N → ℝ, (∀ q, kincv kB T names .all q (f q) = .ok (K q)) ∧
      HasDerivAt (fun mu => Real.log (partition kB hbar (fun a => mu * m a) (fun _ => V) T))
        (mean (boltz kB T ((((n + 1 : ℕ) : ℝ) * kB * T / hbar) ^ 2) m V) K / (kB * T)) 1 := by
  choose K hK1 hK2 using eps_kincv (kB := kB) (T := T) hV hf names
  refine ⟨K, hK1, ?_⟩
  have hP : (1 : ℝ) ≤ ((n + 1 : ℕ) : ℝ) := by
    push_cast
    linarith [(Nat.cast_nonneg n : (0 : ℝ) ≤ n)]
  have hP0 : (0 : ℝ) < ((n + 1 : ℕ) : ℝ) := by linarith
  have hN := (smooth_nice hV).scale (p := fun _ => 1 / ((n + 1 : ℕ) : ℝ)) (p1 := fun _ => 0)
    (p2 := fun _ => 0) (B := 1) (by norm_num) (fun _ _ => hasDerivAt_const _ _)
    (fun _ _ => hasDerivAt_const _ _) fun s _ => by
      refine ⟨?_, by simp, by simp⟩
      rw [abs_of_pos (by positivity), div_le_one hP0]
      exact hP
  have e : (fun s q => 1 / ((n + 1 : ℕ) : ℝ) * along V s q)
      = fun s q => V (scaled q √(1 + s)) / ((n + 1 : ℕ) : ℝ) := by
    funext s q
    rw [one_div_mul_eq_div]
    rfl
  have hC := confined_pair (A := V) (B := fun _ => 0) ha hl (fun _ => le_rfl)
    (p := fun _ => 1 / ((n + 1 : ℕ) : ℝ)) (r := fun _ => 0) (p0 := 1 / ((n + 1 : ℕ) : ℝ))
    (p1 := 1 / ((n + 1 : ℕ) : ℝ)) (by positivity) fun _ _ => ⟨le_rfl, le_rfl, le_rfl⟩
  simp only [zero_mul, add_zero] at hC
  rw [e] at hN hC
  have := mass_deriv (T := T) hkB hT hh hm (fun _ => V) hN hC
  refine this.congr_deriv ?_
  congr 2
  funext q
  have h1 := hK2 q
  have h2 : along V 0 q = V q := by
    unfold along
    congr 1
    ext x
    simp [scaled]
  rw [h2] at h1
  linear_combination h1

/-- **The potential energy averages to the derivative with respect to the strength of the potential**,
times `-kB T`. -/
theorem pot_coupling (hkB : 0 < kB) (hT : 0 < T) (hh : hbar ≠ 0) (hm : ∀ a, 0 < m a)
    (hV : Smooth V) {a D : ℝ} (ha : 0 < a) (hl : ∀ q, a * ‖q‖ ^ 2 - D ≤ V q) :
    HasDerivAt (fun lam => Real.log (partition kB hbar m (fun _ q => lam * V q) T))
      (-(1 / (kB * T)) * mean (boltz kB T ((((n + 1 : ℕ) : ℝ) * kB * T / hbar) ^ 2) m V)
        (fun q => V q / ((n + 1 : ℕ) : ℝ))) 1 := by
  have hP : (1 : ℝ) ≤ ((n + 1 : ℕ) : ℝ) := by
    push_cast
    linarith [(Nat.cast_nonneg n : (0 : ℝ) ≤ n)]
  have hP0 : (0 : ℝ) < ((n + 1 : ℕ) : ℝ) := by linarith
  have hN := (nice_const hV).scale (p := fun s => (1 + s) / ((n + 1 : ℕ) : ℝ))
    (p1 := fun _ => 1 / ((n + 1 : ℕ) : ℝ)) (p2 := fun _ => 0) (B := 2) (by norm_num)
    (fun s _ => ((hasDerivAt_id s).const_add 1).div_const _) (fun s _ => hasDerivAt_const _ _)
    (fun s hs => by
      refine ⟨?_, ?_, by simp⟩
      · rw [abs_div, abs_of_pos hP0, div_le_iff₀ hP0]
        have := abs_small hs
        linarith
      · rw [abs_of_pos (by positivity), div_le_iff₀ hP0]
        linarith)
  have hC := confined_pair0 (A := V) (B := fun _ => 0) ha hl (fun _ => le_rfl)
    (p := fun s => (1 + s) / ((n + 1 : ℕ) : ℝ)) (r := fun _ => 0) (p0 := 1 / 2 / ((n + 1 : ℕ) : ℝ))
    (p1 := 3 / 2 / ((n + 1 : ℕ) : ℝ)) (by positivity) fun s hs =>
      ⟨div_le_div_of_nonneg_right (by linarith [hs.1]) hP0.le,
        div_le_div_of_nonneg_right (by linarith [hs.2]) hP0.le, le_rfl⟩
  simp only [zero_mul, add_zero] at hC
  have e : (fun (s : ℝ) q => (1 + s) / ((n + 1 : ℕ) : ℝ) * V q)
      = fun s q => (1 + s) * V q / ((n + 1 : ℕ) : ℝ) := by
    funext s q
    ring
  rw [e] at hN hC
  have := coupling_deriv (T := T) hkB hT hh hm (fun lam q => lam * V q) hN hC
  refine this.congr_deriv ?_
  simp only [one_mul]
  congr 2
  funext q
  ring

end

end Verif.Estim
