import Verif.Props.C101_Isotopes
import Mathlib.Analysis.Calculus.ParametricIntegral
import Mathlib.Analysis.SpecialFunctions.Log.Deriv
import Mathlib.Analysis.Real.Pi.Bounds

/-!
# C103: the partition function as a function of temperature

Specification: `partition` is the partition function of the ring polymers as a function of the
temperature.  The energy is `kB T² d ln Z / dT`, the heat capacity is the derivative of the energy.  The
potential may depend on the temperature, as it does for fourth order factorisations.
-/

namespace Verif.Estim

open Finset MeasureTheory Topology

section
variable {n N : ℕ} {kB hbar T beta : ℝ} {m : Fin N → ℝ}

/-- Specification: the partition function at temperature `T`, in the potential `U T`. -/
noncomputable def partition (kB hbar : ℝ) (m : Fin N → ℝ) (U : ℝ → Conf n N → ℝ) (T : ℝ) : ℝ :=
  (∏ a, (m a * ((n + 1 : ℕ) : ℝ) * kB * T / (2 * Real.pi * hbar ^ 2)) ^ ((3 : ℝ) / 2 * ((n + 1 : ℕ) : ℝ)))
    * ∫ q, boltz kB T ((((n + 1 : ℕ) : ℝ) * kB * T / hbar) ^ 2) m (U T) q

/-- Specification: an average over the distribution `W`. -/
noncomputable def mean (W g : Conf n N → ℝ) : ℝ := (∫ q, g q * W q) / ∫ q, W q

/-! ### Differentiation under the integral -/

/-- A function of a parameter and a configuration with two derivatives with respect to the
parameter, that grow at most like a power of the size of the configuration. -/
structure Nice (h h1 h2 : ℝ → Conf n N → ℝ) : Prop where
  d1 : ∀ s ∈ Set.Ioo (-1 / 2 : ℝ) (1 / 2), ∀ q, HasDerivAt (fun s => h s q) (h1 s q) s
  d2 : ∀ s ∈ Set.Ioo (-1 / 2 : ℝ) (1 / 2), ∀ q, HasDerivAt (fun s => h1 s q) (h2 s q) s
  c0 : ∀ s ∈ Set.Ioo (-1 / 2 : ℝ) (1 / 2), Continuous (h s)
  c1 : ∀ s ∈ Set.Ioo (-1 / 2 : ℝ) (1 / 2), Continuous (h1 s)
  c2 : ∀ s ∈ Set.Ioo (-1 / 2 : ℝ) (1 / 2), Continuous (h2 s)
  bound : ∃ C : ℝ, 0 ≤ C ∧ ∃ k : ℕ, ∀ s ∈ Set.Ioo (-1 / 2 : ℝ) (1 / 2), ∀ q,
    |h s q| ≤ C * (1 + ‖q‖) ^ k ∧ |h1 s q| ≤ C * (1 + ‖q‖) ^ k ∧ |h2 s q| ≤ C * (1 + ‖q‖) ^ k

/-- A function that grows at least like the square of the size of the configuration. -/
def Confined (h : ℝ → Conf n N → ℝ) : Prop :=
  ∃ c : ℝ, 0 < c ∧ ∃ D : ℝ, ∀ s ∈ Set.Ioo (-1 / 2 : ℝ) (1 / 2), ∀ q, c * ‖q‖ ^ 2 - D ≤ h s q

variable {h h1 h2 : ℝ → Conf n N → ℝ} {S : Conf n N → ℝ}

theorem weight_bound (hb : 0 < beta) (hS0 : ∀ q, 0 ≤ S q) {c D : ℝ}
    (hl : ∀ s ∈ Set.Ioo (-1 / 2 : ℝ) (1 / 2), ∀ q, c * ‖q‖ ^ 2 - D ≤ h s q)
    {s : ℝ} (hs : s ∈ Set.Ioo (-1 / 2 : ℝ) (1 / 2)) (q : Conf n N) :
    Real.exp (-(beta * h s q) - S q) ≤ Real.exp (beta * D) * Real.exp (-(beta * c * ‖q‖ ^ 2)) := by
  rw [← Real.exp_add]
  apply Real.exp_le_exp.2
  have h1 := mul_le_mul_of_nonneg_left (hl s hs q) hb.le
  have h2 := hS0 q
  nlinarith

theorem integrable_poly (hb : 0 < beta) (hN : Nice h h1 h2) (hC : Confined h) (hS : Continuous S)
    (hS0 : ∀ q, 0 ≤ S q) {s : ℝ} (hs : s ∈ Set.Ioo (-1 / 2 : ℝ) (1 / 2)) {g : Conf n N → ℝ}
    (hg : Continuous g) {C : ℝ} {k : ℕ} (hgb : ∀ q, |g q| ≤ C * (1 + ‖q‖) ^ k) :
    Integrable fun q => g q * Real.exp (-(beta * h s q) - S q) := by
  obtain ⟨c, hc, D, hl⟩ := hC
  have h0 := hN.c0 s hs
  exact integrable_gauss (mul_pos hb hc) (by fun_prop)
    (fun q => by
      rw [abs_of_pos (Real.exp_pos _)]
      exact weight_bound hb hS0 hl hs q) hg k hgb

theorem integrable_weight (hb : 0 < beta) (hN : Nice h h1 h2) (hC : Confined h) (hS : Continuous S)
    (hS0 : ∀ q, 0 ≤ S q) {s : ℝ} (hs : s ∈ Set.Ioo (-1 / 2 : ℝ) (1 / 2)) :
    Integrable fun q => Real.exp (-(beta * h s q) - S q) := by
  have := integrable_poly hb hN hC hS hS0 hs (g := fun _ => 1) continuous_const (C := 1) (k := 0) (by simp)
  simpa using this

/-- The bound of the derivatives, integrable. -/
theorem integrable_bound (hb : 0 < beta) {c : ℝ} (hc : 0 < c) (C D : ℝ) (hC : 0 ≤ C) (k : ℕ) :
    Integrable fun q : Conf n N => C * (1 + ‖q‖) ^ k * (Real.exp (beta * D)
      * Real.exp (-(beta * c * ‖q‖ ^ 2))) :=
  integrable_gauss (c := beta * c) (A := Real.exp (beta * D)) (C := C) (k := k) (mul_pos hb hc)
    (by fun_prop) (fun q => by rw [abs_of_pos (by positivity)]) (by fun_prop)
    fun q => by
      have : 0 ≤ ‖q‖ := norm_nonneg q
      rw [abs_of_nonneg (by positivity)]

theorem hasDerivAt_I (hb : 0 < beta) (hN : Nice h h1 h2) (hC : Confined h) (hS : Continuous S)
    (hS0 : ∀ q, 0 ≤ S q) {s : ℝ} (hs : s ∈ Set.Ioo (-1 / 2 : ℝ) (1 / 2)) :
    HasDerivAt (fun s => ∫ q, Real.exp (-(beta * h s q) - S q))
      (-beta * ∫ q, h1 s q * Real.exp (-(beta * h s q) - S q)) s := by
  obtain ⟨C, hC0, k, hbd⟩ := hN.bound
  obtain ⟨c, hc, D, hl⟩ := id hC
  have hsn : Set.Ioo (-1 / 2 : ℝ) (1 / 2) ∈ 𝓝 s := Ioo_mem_nhds hs.1 hs.2
  rw [← integral_const_mul]
  refine (hasDerivAt_integral_of_dominated_loc_of_deriv_le (s := Set.Ioo (-1 / 2 : ℝ) (1 / 2))
    (F' := fun s q => -beta * (h1 s q * Real.exp (-(beta * h s q) - S q)))
    (bound := fun q => beta * C * (1 + ‖q‖) ^ k * (Real.exp (beta * D) * Real.exp (-(beta * c * ‖q‖ ^ 2))))
    hsn ?_ ?_ ?_ ?_ ?_ ?_).2
  · filter_upwards [hsn] with t ht
    have := hN.c0 t ht
    exact Continuous.aestronglyMeasurable (by fun_prop)
  · exact integrable_weight hb hN hC hS hS0 hs
  · have := hN.c0 s hs
    have := hN.c1 s hs
    exact Continuous.aestronglyMeasurable (by fun_prop)
  · refine Filter.Eventually.of_forall fun q t ht => ?_
    rw [Real.norm_eq_abs, abs_mul, abs_neg, abs_of_pos hb, abs_mul, abs_of_pos (Real.exp_pos _)]
    have e1 := (hbd t ht q).2.1
    have e2 := weight_bound hb hS0 hl ht q
    have : 0 ≤ ‖q‖ := norm_nonneg q
    calc beta * (|h1 t q| * Real.exp (-(beta * h t q) - S q))
        ≤ beta * ((C * (1 + ‖q‖) ^ k) * (Real.exp (beta * D) * Real.exp (-(beta * c * ‖q‖ ^ 2)))) :=
          mul_le_mul_of_nonneg_left (mul_le_mul e1 e2 (Real.exp_pos _).le (by positivity)) hb.le
      _ = _ := by ring
  · exact integrable_bound hb hc (beta * C) D (by positivity) k
  · refine Filter.Eventually.of_forall fun q t ht => ?_
    have := (((hN.d1 t ht q).const_mul beta).fun_neg.sub_const (S q)).exp
    refine this.congr_deriv ?_
    ring

theorem hasDerivAt_I1 (hb : 0 < beta) (hN : Nice h h1 h2) (hC : Confined h) (hS : Continuous S)
    (hS0 : ∀ q, 0 ≤ S q) {s : ℝ} (hs : s ∈ Set.Ioo (-1 / 2 : ℝ) (1 / 2)) :
    HasDerivAt (fun s => ∫ q, h1 s q * Real.exp (-(beta * h s q) - S q))
      (∫ q, (h2 s q - beta * h1 s q ^ 2) * Real.exp (-(beta * h s q) - S q)) s := by
  obtain ⟨C, hC0, k, hbd⟩ := hN.bound
  obtain ⟨c, hc, D, hl⟩ := id hC
  have hsn : Set.Ioo (-1 / 2 : ℝ) (1 / 2) ∈ 𝓝 s := Ioo_mem_nhds hs.1 hs.2
  refine (hasDerivAt_integral_of_dominated_loc_of_deriv_le (s := Set.Ioo (-1 / 2 : ℝ) (1 / 2))
    (F' := fun s q => (h2 s q - beta * h1 s q ^ 2) * Real.exp (-(beta * h s q) - S q))
    (bound := fun q => (C + beta * C ^ 2) * (1 + ‖q‖) ^ (2 * k)
      * (Real.exp (beta * D) * Real.exp (-(beta * c * ‖q‖ ^ 2))))
    hsn ?_ ?_ ?_ ?_ ?_ ?_).2
  · filter_upwards [hsn] with t ht
    have := hN.c0 t ht
    have := hN.c1 t ht
    exact Continuous.aestronglyMeasurable (by fun_prop)
  · exact integrable_poly hb hN hC hS hS0 hs (hN.c1 s hs) fun q => (hbd s hs q).2.1
  · have := hN.c0 s hs
    have := hN.c1 s hs
    have := hN.c2 s hs
    exact Continuous.aestronglyMeasurable (by fun_prop)
  · refine Filter.Eventually.of_forall fun q t ht => ?_
    rw [Real.norm_eq_abs, abs_mul, abs_of_pos (Real.exp_pos _)]
    have e1 := (hbd t ht q).2.1
    have e3 := (hbd t ht q).2.2
    have e2 := weight_bound hb hS0 hl ht q
    have h0 : 0 ≤ ‖q‖ := norm_nonneg q
    have h4 : (1 : ℝ) ≤ (1 + ‖q‖) ^ k := one_le_pow₀ (by linarith)
    refine mul_le_mul ?_ e2 (Real.exp_pos _).le (by positivity)
    rw [mul_comm 2 k, pow_mul]
    have h5 : |h2 t q - beta * h1 t q ^ 2| ≤ |h2 t q| + beta * |h1 t q| ^ 2 := by
      calc |h2 t q - beta * h1 t q ^ 2| ≤ |h2 t q| + |beta * h1 t q ^ 2| := abs_sub _ _
        _ = |h2 t q| + beta * |h1 t q| ^ 2 := by rw [abs_mul, abs_of_pos hb, abs_pow]
    have h6 : |h1 t q| ^ 2 ≤ (C * (1 + ‖q‖) ^ k) ^ 2 := pow_le_pow_left₀ (abs_nonneg _) e1 2
    have h7 : beta * |h1 t q| ^ 2 ≤ beta * (C * (1 + ‖q‖) ^ k) ^ 2 := mul_le_mul_of_nonneg_left h6 hb.le
    have h8 : C * (1 + ‖q‖) ^ k ≤ C * ((1 + ‖q‖) ^ k) ^ 2 :=
      mul_le_mul_of_nonneg_left (by nlinarith) hC0
    calc |h2 t q - beta * h1 t q ^ 2| ≤ C * ((1 + ‖q‖) ^ k) ^ 2 + beta * (C * (1 + ‖q‖) ^ k) ^ 2 := by
          linarith
      _ = (C + beta * C ^ 2) * ((1 + ‖q‖) ^ k) ^ 2 := by ring
  · exact integrable_bound hb hc (C + beta * C ^ 2) D (by positivity) (2 * k)
  · refine Filter.Eventually.of_forall fun q t ht => ?_
    have := (hN.d2 t ht q).fun_mul ((((hN.d1 t ht q).const_mul beta).fun_neg.sub_const (S q)).exp)
    refine this.congr_deriv ?_
    ring

/-! ### The partition function on scaled paths -/

/-- The springs at the reference temperature. -/
noncomputable def springS (kB hbar T : ℝ) (m : Fin N → ℝ) (q : Conf n N) : ℝ :=
  (∑ a, 1 / 2 * m a * ((((n + 1 : ℕ) : ℝ) * kB * T / hbar) ^ 2) * springs q a)
    / (kB * T * ((n + 1 : ℕ) : ℝ))

/-- The potential per replica on scaled paths, times the relative inverse temperature. -/
noncomputable def hOf (T : ℝ) (U : ℝ → Conf n N → ℝ) (s : ℝ) (q : Conf n N) : ℝ :=
  (1 + s) * U (T / (1 + s)) (scaled q √(1 + s)) / ((n + 1 : ℕ) : ℝ)

theorem scaled_eq (q : Conf n N) (s : ℝ) : scaled q s = scaleBy (fun _ => s) q := rfl

theorem boltz_scaled (hk : kB * T ≠ 0) (hh : hbar ≠ 0) (U : ℝ → Conf n N → ℝ) {s : ℝ} (hs : 0 < 1 + s)
    (q : Conf n N) :
    boltz kB (T / (1 + s)) ((((n + 1 : ℕ) : ℝ) * kB * (T / (1 + s)) / hbar) ^ 2) m (U (T / (1 + s)))
      (scaleBy (fun _ => √(1 + s)) q)
      = Real.exp (-((1 / (kB * T)) * hOf T U s q) - springS kB hbar T m q) := by
  have hP : ((n + 1 : ℕ) : ℝ) ≠ 0 := by positivity
  have hk1 : kB ≠ 0 := left_ne_zero_of_mul hk
  have ht : T ≠ 0 := right_ne_zero_of_mul hk
  rw [boltz_eq]
  simp only [springs_scale, Real.sq_sqrt hs.le]
  unfold hOf springS
  rw [scaled_eq]
  congr 1
  have e : ∑ a, 1 / 2 * m a * (((n + 1 : ℕ) : ℝ) * kB * (T / (1 + s)) / hbar) ^ 2 * ((1 + s) * springs q a)
      = (1 / (1 + s)) * ∑ a, 1 / 2 * m a * (((n + 1 : ℕ) : ℝ) * kB * T / hbar) ^ 2 * springs q a := by
    rw [Finset.mul_sum]
    refine Finset.sum_congr rfl fun a _ => ?_
    field_simp
  rw [e]
  generalize (∑ a, 1 / 2 * m a * (((n + 1 : ℕ) : ℝ) * kB * T / hbar) ^ 2 * springs q a) = X
  field_simp
  ring

/-- The partition function at another temperature from paths scaled about their centroids. -/
theorem partition_scaled (hk : 0 < kB * T) (hkB : 0 < kB) (hh : hbar ≠ 0) (hm : ∀ a, 0 ≤ m a)
    (U : ℝ → Conf n N → ℝ) {s : ℝ} (hs : 0 < 1 + s) :
    partition kB hbar m U (T / (1 + s))
      = (∏ a, (m a * ((n + 1 : ℕ) : ℝ) * kB * T / (2 * Real.pi * hbar ^ 2))
          ^ ((3 : ℝ) / 2 * ((n + 1 : ℕ) : ℝ)))
        * (1 + s) ^ (-((3 : ℝ) / 2 * N))
        * ∫ q, Real.exp (-((1 / (kB * T)) * hOf T U s q) - springS kB hbar T m q) := by
  have hT : 0 < T := (pos_iff_pos_of_mul_pos hk).1 hkB
  have hi := integral_scale (n := n) (N := N) (w := fun _ => √(1 + s)) (fun _ => Real.sqrt_pos.2 hs)
    (boltz kB (T / (1 + s)) ((((n + 1 : ℕ) : ℝ) * kB * (T / (1 + s)) / hbar) ^ 2) m (U (T / (1 + s))))
  simp only [boltz_scaled hk.ne' hh U hs] at hi
  unfold partition
  rw [← hi, ← mul_assoc]
  congr 1
  have e1 : ∀ a, (m a * ((n + 1 : ℕ) : ℝ) * kB * (T / (1 + s)) / (2 * Real.pi * hbar ^ 2))
        ^ ((3 : ℝ) / 2 * ((n + 1 : ℕ) : ℝ))
      = (m a * ((n + 1 : ℕ) : ℝ) * kB * T / (2 * Real.pi * hbar ^ 2)) ^ ((3 : ℝ) / 2 * ((n + 1 : ℕ) : ℝ))
        * (1 + s) ^ (-((3 : ℝ) / 2 * ((n + 1 : ℕ) : ℝ))) := by
    intro a
    have hma := hm a
    have hpi := Real.pi_pos
    rw [Real.rpow_neg hs.le, ← Real.inv_rpow hs.le, ← Real.mul_rpow (by positivity) (by positivity)]
    congr 1
    field_simp
  simp only [e1, Finset.prod_mul_distrib, Finset.prod_const, Finset.card_univ, Fintype.card_fin]
  rw [mul_assoc]
  congr 1
  rw [Real.sqrt_eq_rpow, ← Real.rpow_natCast, ← Real.rpow_natCast, ← Real.rpow_natCast,
    ← Real.rpow_mul hs.le, ← Real.rpow_mul hs.le, ← Real.rpow_mul hs.le, ← Real.rpow_add hs]
  congr 1
  push_cast
  ring

/-! ### Energy and heat capacity -/

/-- **Energy and heat capacity from scaled coordinates.**  The energy exists at all temperatures nearby,
at `T` it is the average of `eps`, and its derivative, the heat capacity, is
`kB beta² (⟨eps²⟩ - ⟨eps⟩² - ⟨eps'⟩)`. -/
theorem energy_capacity (hkB : 0 < kB) (hT : 0 < T) (hh : hbar ≠ 0) (hm : ∀ a, 0 < m a)
    (U : ℝ → Conf n N → ℝ) (hN : Nice (hOf T U) h1 h2) (hC : Confined (hOf T U))
    (eps eps' : Conf n N → ℝ) (he : ∀ q, eps q = h1 0 q + 3 / 2 * N * (kB * T))
    (he' : ∀ q, eps' q = h2 0 q * (kB * T) - 3 / 2 * N * (kB * T) ^ 2) :
    ∃ E : ℝ → ℝ, (∀ᶠ t in 𝓝 T, HasDerivAt (fun t => Real.log (partition kB hbar m U t))
        (E t / (kB * t ^ 2)) t) ∧
      E T = mean (boltz kB T ((((n + 1 : ℕ) : ℝ) * kB * T / hbar) ^ 2) m (U T)) eps ∧
      HasDerivAt E (kB * (1 / (kB * T)) ^ 2
        * (mean (boltz kB T ((((n + 1 : ℕ) : ℝ) * kB * T / hbar) ^ 2) m (U T)) (fun q => eps q ^ 2)
          - mean (boltz kB T ((((n + 1 : ℕ) : ℝ) * kB * T / hbar) ^ 2) m (U T)) eps ^ 2
          - mean (boltz kB T ((((n + 1 : ℕ) : ℝ) * kB * T / hbar) ^ 2) m (U T)) eps')) T := by
  have hk : 0 < kB * T := mul_pos hkB hT
  set beta := 1 / (kB * T) with hbeta
  have hb : 0 < beta := by positivity
  set S : Conf n N → ℝ := springS kB hbar T m with hSdef
  have hS : Continuous S := by
    rw [hSdef]
    unfold springS springs
    fun_prop
  have hS0 : ∀ q, 0 ≤ S q := by
    intro q
    rw [hSdef]
    unfold springS
    refine div_nonneg (Finset.sum_nonneg fun a _ => ?_) (by positivity)
    have h1 := (hm a).le
    have h2 : 0 ≤ springs q a := by
      unfold springs
      positivity
    positivity
  set h := hOf T U with hh0
  set I : ℝ → ℝ := fun s => ∫ q, Real.exp (-(beta * h s q) - S q) with hI
  set J : ℝ → ℝ := fun s => ∫ q, h1 s q * Real.exp (-(beta * h s q) - S q) with hJ
  have hIpos : ∀ s ∈ Set.Ioo (-1 / 2 : ℝ) (1 / 2), 0 < I s := fun s hs =>
    integral_exp_pos (integrable_weight hb hN hC hS hS0 hs)
  have dI : ∀ s ∈ Set.Ioo (-1 / 2 : ℝ) (1 / 2), HasDerivAt I (-beta * J s) s := fun s hs =>
    hasDerivAt_I hb hN hC hS hS0 hs
  have dJ : ∀ s ∈ Set.Ioo (-1 / 2 : ℝ) (1 / 2), HasDerivAt J
      (∫ q, (h2 s q - beta * h1 s q ^ 2) * Real.exp (-(beta * h s q) - S q)) s := fun s hs =>
    hasDerivAt_I1 hb hN hC hS hS0 hs
  set K := ∏ a, (m a * ((n + 1 : ℕ) : ℝ) * kB * T / (2 * Real.pi * hbar ^ 2))
    ^ ((3 : ℝ) / 2 * ((n + 1 : ℕ) : ℝ)) with hK
  have hKpos : 0 < K := Finset.prod_pos fun a _ => by
    have := hm a
    have := Real.pi_pos
    positivity
  -- the logarithm of the partition function
  have hZ : ∀ t, 0 < t → T / t - 1 ∈ Set.Ioo (-1 / 2 : ℝ) (1 / 2) →
      Real.log (partition kB hbar m U t)
        = Real.log K - (3 / 2 * N) * Real.log (T / t) + Real.log (I (T / t - 1)) := by
    intro t ht hs
    have h0 : 0 < 1 + (T / t - 1) := by
      have := div_pos hT ht
      linarith
    have e := partition_scaled hk hkB hh (fun a => (hm a).le) U h0
    have e2 : T / (1 + (T / t - 1)) = t := by
      rw [add_sub_cancel, div_div_cancel₀ hT.ne']
    rw [e2] at e
    rw [e, Real.log_mul (by positivity) (hIpos _ hs).ne', Real.log_mul hKpos.ne'
      (Real.rpow_pos_of_pos h0 _).ne', Real.log_rpow h0, add_sub_cancel]
    ring
  have hnear : ∀ᶠ t in 𝓝 T, 0 < t ∧ T / t - 1 ∈ Set.Ioo (-1 / 2 : ℝ) (1 / 2) := by
    have c : ContinuousAt (fun t => T / t - 1) T := by
      refine ContinuousAt.sub (ContinuousAt.div continuousAt_const continuousAt_id hT.ne') continuousAt_const
    have h0 : T / T - 1 ∈ Set.Ioo (-1 / 2 : ℝ) (1 / 2) := by
      rw [div_self hT.ne', sub_self]
      constructor <;> norm_num
    exact (lt_mem_nhds hT).and (c (isOpen_Ioo.mem_nhds h0))
  have ds : ∀ t, t ≠ 0 → HasDerivAt (fun t => T / t) (-T / t ^ 2) t := by
    intro t ht
    have := (hasDerivAt_const t T).div (hasDerivAt_id t) ht
    refine this.congr_deriv ?_
    simp
  have hs0 : (0 : ℝ) ∈ Set.Ioo (-1 / 2 : ℝ) (1 / 2) := by constructor <;> norm_num
  have hTT : T / T - 1 = 0 := by rw [div_self hT.ne', sub_self]
  have hW : ∀ q, boltz kB T ((((n + 1 : ℕ) : ℝ) * kB * T / hbar) ^ 2) m (U T) q
      = Real.exp (-(beta * h 0 q) - S q) := by
    intro q
    have := boltz_scaled (m := m) hk.ne' hh U (s := 0) (by norm_num) q
    simp only [add_zero, div_one, Real.sqrt_one] at this
    rw [← this]
    congr 1
    funext x
    simp [scaleBy]
  obtain ⟨C, hC0, k, hbd⟩ := id hN.bound
  have i0 := integrable_weight hb hN hC hS hS0 hs0
  have i1 := integrable_poly hb hN hC hS hS0 hs0 (hN.c1 0 hs0) fun q => (hbd 0 hs0 q).2.1
  have i2 := integrable_poly hb hN hC hS hS0 hs0 (hN.c2 0 hs0) fun q => (hbd 0 hs0 q).2.2
  have i3 : Integrable fun q => h1 0 q ^ 2 * Real.exp (-(beta * h 0 q) - S q) := by
    refine integrable_poly hb hN hC hS hS0 hs0 (g := fun q => h1 0 q ^ 2) ((hN.c1 0 hs0).pow 2)
      (C := C ^ 2) (k := k * 2) fun q => ?_
    rw [abs_pow, pow_mul, ← mul_pow]
    exact pow_le_pow_left₀ (abs_nonneg _) (hbd 0 hs0 q).2.1 2
  have hI0 := hIpos 0 hs0
  set A2 := ∫ q, h2 0 q * Real.exp (-(beta * h 0 q) - S q) with hA2
  set B2 := ∫ q, h1 0 q ^ 2 * Real.exp (-(beta * h 0 q) - S q) with hB2
  have hJ1 : ∫ q, (h2 0 q - beta * h1 0 q ^ 2) * Real.exp (-(beta * h 0 q) - S q) = A2 - beta * B2 := by
    rw [hA2, hB2, ← integral_const_mul, ← integral_sub i2 (i3.const_mul beta)]
    congr 1
    funext q
    ring
  have hm1 : mean (boltz kB T ((((n + 1 : ℕ) : ℝ) * kB * T / hbar) ^ 2) m (U T)) eps
      = J 0 / I 0 + 3 / 2 * N * (kB * T) := by
    unfold mean
    simp only [hW, he]
    have : ∫ q, (h1 0 q + 3 / 2 * N * (kB * T)) * Real.exp (-(beta * h 0 q) - S q)
        = J 0 + 3 / 2 * N * (kB * T) * I 0 := by
      rw [hJ, hI]
      simp only
      rw [← integral_const_mul, ← integral_add i1 (i0.const_mul _)]
      congr 1
      funext q
      ring
    rw [this, add_div, mul_div_assoc, div_self hI0.ne', mul_one]
  have hm2 : mean (boltz kB T ((((n + 1 : ℕ) : ℝ) * kB * T / hbar) ^ 2) m (U T)) (fun q => eps q ^ 2)
      = B2 / I 0 + 2 * (3 / 2 * N * (kB * T)) * (J 0 / I 0) + (3 / 2 * N * (kB * T)) ^ 2 := by
    unfold mean
    simp only [hW, he]
    have : ∫ q, (h1 0 q + 3 / 2 * N * (kB * T)) ^ 2 * Real.exp (-(beta * h 0 q) - S q)
        = B2 + 2 * (3 / 2 * N * (kB * T)) * J 0 + (3 / 2 * N * (kB * T)) ^ 2 * I 0 := by
      rw [hJ, hI, hB2]
      simp only
      rw [← integral_const_mul, ← integral_const_mul, ← integral_add i3 (i1.const_mul _),
        ← integral_add (f := fun q => h1 0 q ^ 2 * Real.exp (-(beta * h 0 q) - S q)
          + 2 * (3 / 2 * N * (kB * T)) * (h1 0 q * Real.exp (-(beta * h 0 q) - S q)))
          (i3.add (i1.const_mul _)) (i0.const_mul _)]
      congr 1
      funext q
      ring
    rw [this, add_div, add_div, mul_div_assoc, mul_div_assoc _ (I 0), div_self hI0.ne', mul_one]
  have hm3 : mean (boltz kB T ((((n + 1 : ℕ) : ℝ) * kB * T / hbar) ^ 2) m (U T)) eps'
      = A2 / I 0 * (kB * T) - 3 / 2 * N * (kB * T) ^ 2 := by
    unfold mean
    simp only [hW, he']
    have : ∫ q, (h2 0 q * (kB * T) - 3 / 2 * N * (kB * T) ^ 2) * Real.exp (-(beta * h 0 q) - S q)
        = (kB * T) * A2 - 3 / 2 * N * (kB * T) ^ 2 * I 0 := by
      rw [hI, hA2]
      simp only
      rw [← integral_const_mul, ← integral_const_mul, ← integral_sub (i2.const_mul _) (i0.const_mul _)]
      congr 1
      funext q
      ring
    rw [this, sub_div, mul_div_assoc, mul_div_assoc _ (I 0), div_self hI0.ne']
    ring
  refine ⟨fun t => 3 / 2 * N * kB * t + J (T / t - 1) / I (T / t - 1), ?_, ?_, ?_⟩
  · filter_upwards [hnear.eventually_nhds] with t ht
    obtain ⟨ht0, hts⟩ := ht.self_of_nhds
    have e : (fun t => Real.log (partition kB hbar m U t)) =ᶠ[𝓝 t] fun t => Real.log K
        - (3 / 2 * N) * Real.log (T / t) + Real.log (I (T / t - 1)) := by
      filter_upwards [ht] with u hu
      exact hZ u hu.1 hu.2
    refine HasDerivAt.congr_of_eventuallyEq ?_ e
    have d1 : HasDerivAt (fun t => Real.log (T / t)) ((-T / t ^ 2) / (T / t)) t :=
      (ds t ht0.ne').log (div_pos hT ht0).ne'
    have d2 : HasDerivAt (fun t => I (T / t - 1)) (-beta * J (T / t - 1) * (-T / t ^ 2)) t :=
      HasDerivAt.comp (h₂ := I) (h := fun t => T / t - 1) t (dI _ hts) ((ds t ht0.ne').sub_const 1)
    refine (((d1.const_mul (3 / 2 * (N : ℝ))).const_sub (Real.log K)).add
      (d2.log (hIpos _ hts).ne')).congr_deriv ?_
    have := (hIpos _ hts).ne'
    have hT' := hT.ne'
    have hk' := hkB.ne'
    have ht' := ht0.ne'
    rw [hbeta]
    field_simp
  · simp only [hTT, hm1]
    ring
  · have d0 : HasDerivAt (fun t => T / t - 1) (-T / T ^ 2) T := (ds T hT.ne').sub_const 1
    have d1 : HasDerivAt (fun t => I (T / t - 1)) (-beta * J 0 * (-T / T ^ 2)) T := by
      refine HasDerivAt.comp (h₂ := I) (h := fun t => T / t - 1) T ?_ d0
      rw [hTT]
      exact dI 0 hs0
    have d2 : HasDerivAt (fun t => J (T / t - 1)) ((A2 - beta * B2) * (-T / T ^ 2)) T := by
      refine HasDerivAt.comp (h₂ := J) (h := fun t => T / t - 1) T ?_ d0
      rw [hTT, ← hJ1]
      exact dJ 0 hs0
    have hI0' : I (T / T - 1) ≠ 0 := by
      rw [hTT]
      exact hI0.ne'
    refine (((hasDerivAt_id T).const_mul (3 / 2 * N * kB)).add (d2.fun_div d1 hI0')).congr_deriv ?_
    simp only [hm1, hm2, hm3, hTT]
    have hT' := hT.ne'
    have hk' := hkB.ne'
    have hI' := hI0.ne'
    rw [hbeta]
    generalize J 0 = j at *
    generalize I 0 = i at *
    field_simp
    ring

end

end Verif.Estim
