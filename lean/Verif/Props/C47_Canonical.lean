import Verif.Props.C47_Heat
import Verif.Phys.Gauss

/-!
# C47, second half: thermostats keep the canonical distribution

Specification: the Boltzmann distribution of momenta, a product of Gaussians of variance `m kB T`.
If the momenta have it before a step, and the random numbers are independent standard normal ones,
the momenta have it after the step.
-/

namespace Verif.Thermo

open MeasureTheory ProbabilityTheory Verif.Gauss
open scoped RealInnerProductSpace NNReal

/-- Specification: the distribution with density proportional to `exp(-Σ p²/(2 m kT))`. -/
noncomputable def canonical {ι : Type} [Fintype ι] (kT : ℝ) (m : ι → ℝ) : Measure (ι → ℝ) :=
  Measure.pi fun i => gaussianReal 0 (kT * m i).toNNReal

/-- Specification: independent standard normal numbers. -/
noncomputable def normals (ι : Type) [Fintype ι] : Measure (ι → ℝ) :=
  Measure.pi fun _ => gaussianReal 0 1

noncomputable instance {ι : Type} [Fintype ι] (kT : ℝ) (m : ι → ℝ) :
    IsProbabilityMeasure (canonical kT m) := by unfold canonical; infer_instance

noncomputable instance {ι : Type} [Fintype ι] : IsProbabilityMeasure (normals ι) := by
  unfold normals; infer_instance

/-- A map acting on every component with its own noise. -/
theorem pi_prod_map {ι : Type} [Fintype ι] {α β γ : Type*} [MeasurableSpace α] [MeasurableSpace β]
    [MeasurableSpace γ] (μ : ι → Measure α) (ν : ι → Measure β) [∀ i, IsProbabilityMeasure (μ i)]
    [∀ i, IsProbabilityMeasure (ν i)] {f : ι → α × β → γ} (hf : ∀ i, Measurable (f i)) :
    ((Measure.pi μ).prod (Measure.pi ν)).map (fun z i => f i (z.1 i, z.2 i))
      = Measure.pi fun i => ((μ i).prod (ν i)).map (f i) := by
  have hp : ∀ i, IsProbabilityMeasure (((μ i).prod (ν i)).map (f i)) := fun i =>
    Measure.isProbabilityMeasure_map (hf i).aemeasurable
  rw [← Measure.pi_map_pi (fun i => (hf i).aemeasurable),
    ← (measurePreserving_arrowProdEquivProdArrow α β ι μ ν).map_eq,
    Measure.map_map (by fun_prop) (MeasurableEquiv.measurable _)]
  rfl

/-- One degree of freedom. -/
theorem gaussian_comb (v : ℝ≥0) (a b : ℝ) :
    ((gaussianReal 0 v).prod (gaussianReal 0 1)).map (fun z => a * z.1 + b * z.2)
      = gaussianReal 0 (a ^ 2 * v + b ^ 2).toNNReal := by
  have h : ((gaussianReal 0 v).prod (gaussianReal 0 1)).map (fun z => a * z.1 + b * z.2)
      = ((gaussianReal 0 v).map (a * ·)) ∗ ((gaussianReal 0 1).map (b * ·)) := by
    rw [Measure.conv, Measure.map_prod_map _ _ (by fun_prop) (by fun_prop),
      Measure.map_map (by fun_prop) (by fun_prop)]
    rfl
  rw [h, gaussianReal_map_const_mul, gaussianReal_map_const_mul, gaussianReal_conv_gaussianReal]
  simp only [mul_zero, add_zero, mul_one]
  congr 1
  ext
  have : 0 ≤ a ^ 2 * (v : ℝ) + b ^ 2 := by positivity
  simp [this]

/-- The relation between damping and noise. -/
theorem fluctuation_dissipation {kb temp T : ℝ} (h : 0 ≤ kb * temp) (hT : T ^ 2 ≤ 1) :
    T ^ 2 * (kb * temp) + lanS kb temp T ^ 2 = kb * temp := by
  unfold lanS
  rw [Real.sq_sqrt (mul_nonneg h (by linarith))]
  ring

theorem expT_sq_le {dt tau : ℝ} (hd : 0 ≤ dt) (ht : 0 < tau) : expT dt tau ^ 2 ≤ 1 :=
  pow_le_one₀ (expT_pos _ _).le (expT_le hd ht)

/-- **C47 (Langevin).**  The canonical distribution is invariant. -/
theorem langevin_canonical {ι : Type} [Fintype ι] {m : ι → ℝ} (hm : ∀ i, 0 < m i)
    {kb temp dt tau : ℝ} (hk : 0 ≤ kb) (ht : 0 ≤ temp) (hd : 0 ≤ dt) (htau : 0 < tau) (e : ℝ) :
    ((canonical (kb * temp) m).prod (normals ι)).map
        (fun z => (langevinStep m kb temp dt tau z.2 ⟨z.1, e⟩).p)
      = canonical (kb * temp) m := by
  have hf : (fun z : (ι → ℝ) × (ι → ℝ) => (langevinStep m kb temp dt tau z.2 ⟨z.1, e⟩).p)
      = fun z i => (fun w : ℝ × ℝ => expT dt tau * w.1
          + lanS kb temp (expT dt tau) * √(m i) * w.2) (z.1 i, z.2 i) := by
    funext z i
    have := Real.sqrt_ne_zero'.2 (hm i)
    simp only [langevinStep, langevin, sm]
    field_simp
  rw [hf]
  unfold canonical normals
  rw [pi_prod_map (fun i => gaussianReal 0 (kb * temp * m i).toNNReal) (fun _ => gaussianReal 0 1)
    (f := fun i (w : ℝ × ℝ) => expT dt tau * w.1 + lanS kb temp (expT dt tau) * √(m i) * w.2)
    (fun i => by fun_prop)]
  congr 1
  funext i
  rw [gaussian_comb]
  congr 2
  have hv : ((kb * temp * m i).toNNReal : ℝ) = kb * temp * m i :=
    Real.coe_toNNReal _ (by have := hm i; positivity)
  rw [hv, mul_pow, Real.sq_sqrt (hm i).le]
  have := fluctuation_dissipation (mul_nonneg hk ht) (expT_sq_le hd htau)
  linear_combination (m i) * this

/-- What forces with noise and drag of their own do to the momenta: noise of variance
`kb temp (1 / inT² - 1)` times the mass, then damping by `idT`. -/
noncomputable def inherent {ι : Type} (m : ι → ℝ) (kT inT idT : ℝ) (eta p : ι → ℝ) : ι → ℝ :=
  fun i => idT * (p i + √(kT * (1 / inT ^ 2 - 1)) * √(m i) * eta i)

/-- Such forces take the canonical distribution to the one of another temperature. -/
theorem inherent_effect {ι : Type} [Fintype ι] {m : ι → ℝ} (hm : ∀ i, 0 < m i) {kT inT : ℝ}
    (hk : 0 ≤ kT) (h0 : 0 < inT) (h1 : inT ≤ 1) (idT : ℝ) :
    ((canonical kT m).prod (normals ι)).map (fun z => inherent m kT inT idT z.2 z.1)
      = canonical (kT * (idT / inT) ^ 2) m := by
  have hf : (fun z : (ι → ℝ) × (ι → ℝ) => inherent m kT inT idT z.2 z.1)
      = fun z i => (fun w : ℝ × ℝ => idT * w.1
          + idT * (√(kT * (1 / inT ^ 2 - 1)) * √(m i)) * w.2) (z.1 i, z.2 i) := by
    funext z i
    simp only [inherent]
    ring
  rw [hf]
  unfold canonical normals
  rw [pi_prod_map (fun i => gaussianReal 0 (kT * m i).toNNReal) (fun _ => gaussianReal 0 1)
    (f := fun i (w : ℝ × ℝ) => idT * w.1 + idT * (√(kT * (1 / inT ^ 2 - 1)) * √(m i)) * w.2)
    (fun i => by fun_prop)]
  congr 1
  funext i
  rw [gaussian_comb]
  congr 2
  have hv : ((kT * m i).toNNReal : ℝ) = kT * m i :=
    Real.coe_toNNReal _ (by have := hm i; positivity)
  have hs : 0 ≤ kT * (1 / inT ^ 2 - 1) := by
    refine mul_nonneg hk ?_
    have : 1 ≤ 1 / inT ^ 2 := by
      rw [le_div_iff₀ (by positivity), one_mul]
      exact pow_le_one₀ h0.le h1
    linarith
  rw [hv, mul_pow, mul_pow, Real.sq_sqrt (hm i).le, Real.sq_sqrt hs]
  field_simp
  ring

theorem clT_pos (dt tau : ℝ) : 0 < clT dt tau := by
  unfold clT
  split
  · exact Real.exp_pos _
  · exact one_pos

theorem clT_le {dt : ℝ} (hd : 0 ≤ dt) (tau : ℝ) : clT dt tau ≤ 1 := by
  unfold clT
  split
  · next h =>
    refine Real.exp_le_one_iff.2 ?_
    have : 0 ≤ 0.5 * dt / tau := by positivity
    rw [neg_mul, neg_div]
    linarith
  · exact le_rfl

/-- **C47 (Langevin with inherent noise and drag).**  The step makes good exactly what forces with
noise of time scale `intau` and drag of time scale `idtau` do to the canonical distribution. -/
theorem cl_canonical {ι : Type} [Fintype ι] {m : ι → ℝ} (hm : ∀ i, 0 < m i)
    {kb temp dt : ℝ} (hk : 0 ≤ kb) (ht : 0 ≤ temp) (hd : 0 ≤ dt) (tau intau idtau e : ℝ) :
    ((((canonical (kb * temp) m).prod (normals ι)).map
        (fun z => inherent m (kb * temp) (clT dt intau) (clT dt idtau) z.2 z.1)).prod
        (normals ι)).map
        (fun z => (clStep m kb temp dt tau intau idtau z.2 ⟨z.1, e⟩).p)
      = canonical (kb * temp) m := by
  rw [inherent_effect hm (mul_nonneg hk ht) (clT_pos _ _) (clT_le hd _)]
  generalize hl : clT dt tau = l
  generalize hn : clT dt intau = a
  generalize hx : clT dt idtau = d
  have ha : 0 < a := hn ▸ clT_pos _ _
  have hld : (l * d) ^ 2 ≤ 1 := by
    rw [← hl, ← hx]
    exact pow_le_one₀ (mul_pos (clT_pos _ _) (clT_pos _ _)).le
      (mul_le_one₀ (clT_le hd _) (clT_pos _ _).le (clT_le hd _))
  have hf : (fun z : (ι → ℝ) × (ι → ℝ) => (clStep m kb temp dt tau intau idtau z.2 ⟨z.1, e⟩).p)
      = fun z i => (fun w : ℝ × ℝ => l * a * w.1
          + √(kb * temp * (1 - (l * d) ^ 2)) * √(m i) * w.2) (z.1 i, z.2 i) := by
    funext z i
    have := Real.sqrt_ne_zero'.2 (hm i)
    simp only [clStep, cl, sm, hl, hn, hx]
    field_simp
  rw [hf]
  unfold canonical normals
  rw [pi_prod_map (fun i => gaussianReal 0 (kb * temp * (d / a) ^ 2 * m i).toNNReal)
    (fun _ => gaussianReal 0 1)
    (f := fun i (w : ℝ × ℝ) => l * a * w.1 + √(kb * temp * (1 - (l * d) ^ 2)) * √(m i) * w.2)
    (fun i => by fun_prop)]
  congr 1
  funext i
  rw [gaussian_comb]
  congr 2
  have hv : ((kb * temp * (d / a) ^ 2 * m i).toNNReal : ℝ) = kb * temp * (d / a) ^ 2 * m i :=
    Real.coe_toNNReal _ (by have := hm i; positivity)
  have hs : 0 ≤ kb * temp * (1 - (l * d) ^ 2) := mul_nonneg (mul_nonneg hk ht) (by linarith)
  rw [hv, mul_pow, mul_pow, Real.sq_sqrt (hm i).le, Real.sq_sqrt hs]
  field_simp
  ring

/-- The pile thermostat acts on every normal mode separately: each keeps its distribution. -/
theorem pileL_canonical {nb n : ℕ} {dynm : Fin nb → Fin n → ℝ} (hm : ∀ k i, 0 < dynm k i)
    {kb dt : ℝ} {temp tau : Fin nb → ℝ} (hk : 0 ≤ kb) (hd : 0 ≤ dt) (ht : ∀ k, 0 ≤ temp k)
    (htau : ∀ k, 0 < tau k) (e : Fin nb → ℝ) :
    ((Measure.pi fun k => canonical (kb * temp k) (dynm k)).prod
        (Measure.pi fun _ : Fin nb => normals (Fin n))).map
        (fun z k => (pileL dynm kb dt temp tau z.2 (fun k => ⟨z.1 k, e k⟩) k).p)
      = Measure.pi fun k => canonical (kb * temp k) (dynm k) := by
  have := pi_prod_map (fun k => canonical (kb * temp k) (dynm k)) (fun _ : Fin nb => normals (Fin n))
    (f := fun k w => (langevinStep (dynm k) kb (temp k) dt (tau k) w.2 ⟨w.1, e k⟩).p) (by
      intro k
      unfold langevinStep langevin
      simp only
      fun_prop)
  simp only [pileL]
  rw [this]
  congr 1
  funext k
  exact langevin_canonical (hm k) hk (ht k) hd (htau k) (e k)

end Verif.Thermo
