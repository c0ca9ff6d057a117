import Verif.Props.C47_Canonical

/-!
# C47: the fast-forward Langevin thermostat keeps the canonical distribution

For all four flips.  An atom at rest gives NaN for two of them (`ffl_at_rest`); in the canonical
distribution this has probability zero.
-/

namespace Verif.Thermo

open MeasureTheory ProbabilityTheory Verif.Gauss
open scoped RealInnerProductSpace NNReal

/-! ### One component: the hard flip -/

/-- The hard flip of one component. -/
noncomputable def hard1 (T S : ℝ) (z : ℝ × ℝ) : ℝ :=
  (z.1 * T + S * z.2) * sgn ((z.1 * T + S * z.2) * z.1)

theorem sgn_measurable : Measurable sgn := by
  unfold sgn
  refine Measurable.ite measurableSet_Ioi measurable_const ?_
  exact Measurable.ite measurableSet_Iio measurable_const measurable_const

theorem abs_sgn {x : ℝ} (h : x ≠ 0) : |sgn x| = 1 := by
  unfold sgn
  rcases lt_or_gt_of_ne h with h | h
  · simp [not_lt.2 h.le, h]
  · simp [h]

theorem iso_real (O : ℝ ≃ₗᵢ[ℝ] ℝ) : ∃ a : ℝ, a ^ 2 = 1 ∧ ∀ x, O x = a * x := by
  refine ⟨O 1, ?_, fun x => ?_⟩
  · have := O.norm_map 1
    rw [Real.norm_eq_abs, norm_one] at this
    rw [← sq_abs, this]
    norm_num
  · have := O.map_smul x 1
    simpa [mul_comm] using this

theorem isoInv_gaussianReal (v : ℝ≥0) : IsoInv (gaussianReal 0 v) := by
  intro O
  obtain ⟨a, ha, hO⟩ := iso_real O
  have : (O : ℝ → ℝ) = (a * ·) := funext hO
  rw [this, gaussianReal_map_const_mul]
  congr 1
  · simp
  · ext
    simp [ha]

theorem gaussianReal_ne_zero {v : ℝ≥0} (hv : v ≠ 0) : ∀ᵐ x ∂(gaussianReal 0 v), x ≠ 0 := by
  have := nullSingletonClass_gaussianReal (μ := 0) hv
  rw [ae_iff]
  simp

theorem hard1_law {kT T S : ℝ} (hk : 0 < kT) (h : T ^ 2 * kT + S ^ 2 = kT) :
    ((gaussianReal 0 kT.toNNReal).prod (gaussianReal 0 1)).map (hard1 T S)
      = gaussianReal 0 kT.toNNReal := by
  have hsg := sgn_measurable
  have hf : Measurable (hard1 T S) := by unfold hard1; fun_prop
  have hg : Measurable fun z : ℝ × ℝ => T * z.1 + S * z.2 := by fun_prop
  have hlaw := gaussian_comb kT.toNNReal T S
  rw [Real.coe_toNNReal _ hk.le, h] at hlaw
  conv_rhs => rw [← hlaw]
  have hv : kT.toNNReal ≠ 0 := by simpa using hk
  refine Gauss.law_of_norm hf hg ?_ (by rw [hlaw]; exact isoInv_gaussianReal _) ?_
  · refine Gauss.isoInv_map hf (fun O z => (O z.1, O z.2))
      (fun O => by have := iso_measurable O; fun_prop) (fun O => ?_) (fun O z => ?_)
    · have h2 := Measure.map_prod_map (gaussianReal 0 kT.toNNReal) (gaussianReal 0 1)
        (iso_measurable O) (iso_measurable O)
      rw [isoInv_gaussianReal _ O, isoInv_gaussianReal _ O] at h2
      exact h2.symm
    · obtain ⟨a, ha, hO⟩ := iso_real O
      simp only [hard1, hO]
      rw [show (a * z.1 * T + S * (a * z.2)) * (a * z.1)
        = a ^ 2 * ((z.1 * T + S * z.2) * z.1) by ring, ha, one_mul]
      ring
  · have a1 : ∀ᵐ z ∂((gaussianReal 0 kT.toNNReal).prod (gaussianReal 0 1)), z.1 ≠ 0 :=
      Measure.quasiMeasurePreserving_fst.ae (gaussianReal_ne_zero hv)
    filter_upwards [a1] with z hz
    unfold hard1
    rw [mul_comm T]
    by_cases hy : z.1 * T + S * z.2 = 0
    · simp [hy]
    · rw [norm_mul, Real.norm_eq_abs (sgn _), abs_sgn (mul_ne_zero hy hz), mul_one]

/-! ### One atom -/

/-- The flip of one atom with NaN replaced by zero. -/
noncomputable def flipT (f : Flip) (T S : ℝ) (z : (Fin 3 → ℝ) × (Fin 3 → ℝ)) : Fin 3 → ℝ :=
  (flipRow f z.1 (fun k => z.1 k * T + S * z.2 k)).getD 0

theorem flipT_hard (T S : ℝ) (z : (Fin 3 → ℝ) × (Fin 3 → ℝ)) :
    flipT .hard T S z = fun k => hard1 T S (z.1 k, z.2 k) := rfl

theorem flipT_none (T S : ℝ) (z : (Fin 3 → ℝ) × (Fin 3 → ℝ)) :
    flipT .none T S z = fun k => T * z.1 k + S * z.2 k := by
  funext k
  simp [flipT, flipRow, mul_comm]

theorem flipT_measurable (f : Flip) (T S : ℝ) : Measurable (flipT f T S) := by
  have hsg := sgn_measurable
  have hd : Measurable fun z : (Fin 3 → ℝ) × (Fin 3 → ℝ) => dot z.1 z.1 := by
    unfold dot; fun_prop
  have hset : MeasurableSet {z : (Fin 3 → ℝ) × (Fin 3 → ℝ) | dot z.1 z.1 = 0} :=
    hd (measurableSet_singleton 0)
  cases f
  · have : flipT .soft T S = fun z => open scoped Classical in if dot z.1 z.1 = 0 then 0 else
        fun k => (z.1 k * T + S * z.2 k)
          + hfunc (dot z.1 (fun k => z.1 k * T + S * z.2 k) / dot z.1 z.1) * z.1 k := by
      funext z
      simp only [flipT, flipRow]
      split <;> rfl
    rw [this]
    refine Measurable.ite hset measurable_const ?_
    unfold hfunc dot
    fun_prop
  · have : flipT .hard T S = fun z k => hard1 T S (z.1 k, z.2 k) := funext (flipT_hard T S)
    rw [this]
    unfold hard1
    fun_prop
  · have : flipT .rescale T S = fun z => open scoped Classical in if dot z.1 z.1 = 0 then 0 else
        fun k => √(dot (fun k => z.1 k * T + S * z.2 k) (fun k => z.1 k * T + S * z.2 k))
          / √(dot z.1 z.1) * z.1 k := by
      funext z
      simp only [flipT, flipRow]
      split <;> rfl
    rw [this]
    refine Measurable.ite hset measurable_const ?_
    unfold dot
    fun_prop
  · rw [show flipT .none T S = fun z k => T * z.1 k + S * z.2 k from funext (flipT_none T S)]
    fun_prop

/-- Three-dimensional vectors with their Euclidean norm. -/
abbrev E3 := EuclideanSpace ℝ (Fin 3)

theorem dot_inner (x y : E3) : dot x.ofLp y.ofLp = ⟪x, y⟫ := by
  simp [dot, PiLp.inner_apply, mul_comm]

/-- The flip of one atom on Euclidean vectors. -/
noncomputable def flipE (f : Flip) (T S : ℝ) (z : E3 × E3) : E3 :=
  WithLp.toLp 2 (flipT f T S (z.1.ofLp, z.2.ofLp))

theorem flipE_soft (T S : ℝ) (z : E3 × E3) : flipE .soft T S z = open scoped Classical in
    if ⟪z.1, z.1⟫ = 0 then 0 else (T • z.1 + S • z.2)
      + hfunc (⟪z.1, T • z.1 + S • z.2⟫ / ⟪z.1, z.1⟫) • z.1 := by
  have e : (fun k => z.1.ofLp k * T + S * z.2.ofLp k) = (T • z.1 + S • z.2 : E3).ofLp := by
    funext k; simp [mul_comm]
  simp only [flipE, flipT, flipRow]
  rw [e, dot_inner, dot_inner]
  split
  · rfl
  · ext k
    simp [mul_comm]

theorem flipE_rescale (T S : ℝ) (z : E3 × E3) : flipE .rescale T S z = open scoped Classical in
    if ⟪z.1, z.1⟫ = 0 then 0 else (‖T • z.1 + S • z.2‖ / ‖z.1‖) • z.1 := by
  have e : (fun k => z.1.ofLp k * T + S * z.2.ofLp k) = (T • z.1 + S • z.2 : E3).ofLp := by
    funext k; simp [mul_comm]
  simp only [flipE, flipT, flipRow]
  rw [e, dot_inner, dot_inner]
  split
  · rfl
  · ext k
    simp only [Option.getD_some, PiLp.smul_apply, smul_eq_mul]
    rw [norm_eq_sqrt_real_inner, norm_eq_sqrt_real_inner]

theorem sgn_neg {x : ℝ} (h : x < 0) : sgn x = -1 := by simp [sgn, not_lt.2 h.le, h]
theorem sgn_pos {x : ℝ} (h : 0 < x) : sgn x = 1 := by simp [sgn, h]

/-- Both flips keep the length of the vector. -/
theorem flipE_norm {f : Flip} (hf : f = .soft ∨ f = .rescale) (T S : ℝ) {z : E3 × E3} (hz : z.1 ≠ 0) :
    ‖flipE f T S z‖ = ‖T • z.1 + S • z.2‖ := by
  have hi : ⟪z.1, z.1⟫ ≠ 0 := by simpa using hz
  rcases hf with rfl | rfl
  · rw [flipE_soft, if_neg hi]
    generalize T • z.1 + S • z.2 = y
    set d := ⟪z.1, y⟫ / ⟪z.1, z.1⟫ with hd
    rcases lt_trichotomy d 0 with h | h | h
    · have hh : hfunc d = -2 * d := by unfold hfunc; rw [sgn_neg h]; ring
      rw [hh, ← sq_eq_sq₀ (norm_nonneg _) (norm_nonneg _), ← real_inner_self_eq_norm_sq,
        ← real_inner_self_eq_norm_sq, inner_add_left, inner_add_right, inner_add_right,
        inner_smul_left, inner_smul_right, inner_smul_right, inner_smul_left, real_inner_comm z.1 y]
      have : ⟪z.1, y⟫ = d * ⟪z.1, z.1⟫ := by rw [hd]; field_simp
      simp only [this, RCLike.conj_to_real]
      ring
    · have hh : hfunc d = 0 := by rw [h]; simp [hfunc]
      rw [hh, zero_smul, add_zero]
    · have hh : hfunc d = 0 := by unfold hfunc; rw [sgn_pos h]; ring
      rw [hh, zero_smul, add_zero]
  · rw [flipE_rescale, if_neg hi, norm_smul, norm_div, norm_norm, norm_norm,
      div_mul_cancel₀ _ (norm_ne_zero_iff.2 hz)]

theorem flipE_iso {f : Flip} (hf : f = .soft ∨ f = .rescale) (T S : ℝ) (O : E3 ≃ₗᵢ[ℝ] E3)
    (z : E3 × E3) : flipE f T S (O z.1, O z.2) = O (flipE f T S z) := by
  have e : T • O z.1 + S • O z.2 = O (T • z.1 + S • z.2) := by rw [map_add, map_smul, map_smul]
  rcases hf with rfl | rfl
  · simp only [flipE_soft, e, O.inner_map_map]
    split
    · simp
    · generalize T • z.1 + S • z.2 = y
      rw [map_add, map_smul]
  · simp only [flipE_rescale, e, O.inner_map_map, O.norm_map]
    split
    · simp
    · rw [map_smul]

/-- Mass scaled momenta of one atom as Euclidean vectors. -/
theorem canonical_one {kT : ℝ} (hk : 0 ≤ kT) :
    (canonical kT (fun _ : Fin 3 => (1 : ℝ))).map (WithLp.toLp 2)
      = (stdGaussian E3).map (fun x => √kT • x) := by
  have h3 := Measure.pi_map_pi (μ := fun _ : Fin 3 => gaussianReal 0 1)
    (f := fun _ x => √kT * x) (fun i => by fun_prop)
  have h4 : canonical kT (fun _ : Fin 3 => (1 : ℝ))
      = (Measure.pi fun _ : Fin 3 => gaussianReal 0 1).map (fun x i => √kT * x i) := by
    rw [h3]
    unfold canonical
    congr 1
    funext i
    rw [gaussianReal_map_const_mul]
    congr 1
    · simp
    · ext
      simp [Real.sq_sqrt hk, hk]
  rw [h4, ← map_pi_eq_stdGaussian, Measure.map_map (by fun_prop) (by fun_prop),
    Measure.map_map (by fun_prop) (by fun_prop)]
  rfl

theorem isoInv_smul {μ : Measure E3} (h : IsoInv μ) (a : ℝ) : IsoInv (μ.map (fun x => a • x)) := by
  refine Gauss.isoInv_map (by fun_prop) (fun O => O) (fun O => iso_measurable O) h (fun O x => ?_)
  rw [map_smul]

/-- One atom, mass scaled momenta, any flip. -/
theorem flipT_law (f : Flip) {kT T S : ℝ} (hk : 0 < kT) (h : T ^ 2 * kT + S ^ 2 = kT) :
    ((canonical kT (fun _ : Fin 3 => (1 : ℝ))).prod (normals (Fin 3))).map (flipT f T S)
      = canonical kT (fun _ : Fin 3 => (1 : ℝ)) := by
  by_cases hf : f = .soft ∨ f = .rescale
  · -- transfer to Euclidean vectors
    set ν : Measure E3 := (stdGaussian E3).map (fun x => √kT • x) with hν
    have hνp : IsProbabilityMeasure ν := Measure.isProbabilityMeasure_map (by fun_prop)
    have hto : Measurable (WithLp.toLp 2 : (Fin 3 → ℝ) → E3) := by fun_prop
    have hof : Measurable (WithLp.ofLp : E3 → (Fin 3 → ℝ)) := by fun_prop
    have hE : Measurable (flipE f T S) := by
      unfold flipE
      exact hto.comp ((flipT_measurable f T S).comp (by fun_prop))
    have hlin : (ν.prod (stdGaussian E3)).map (fun z => T • z.1 + S • z.2) = ν := by
      have h1 := Measure.map_prod_map (stdGaussian E3) (stdGaussian E3) (f := fun x => √kT • x)
        (g := id) (by fun_prop) measurable_id
      rw [Measure.map_id] at h1
      rw [hν, h1, Measure.map_map (by fun_prop) (by fun_prop)]
      have hc : T ^ 2 + (S / √kT) ^ 2 = 1 := by
        rw [div_pow, Real.sq_sqrt hk.le]
        field_simp
        exact h
      conv_rhs => rw [← comb (E := E3) hc]
      rw [Measure.map_map (by fun_prop) (by fun_prop)]
      congr 1
      funext z
      have : √kT ≠ 0 := Real.sqrt_ne_zero'.2 hk
      simp only [Function.comp, Prod.map, id, smul_add, smul_smul]
      congr 2
      · ring
      · field_simp
    have hinv : IsoInv ν := isoInv_smul isoInv_stdGaussian _
    have hEl : (ν.prod (stdGaussian E3)).map (flipE f T S) = ν := by
      conv_rhs => rw [← hlin]
      refine Gauss.law_of_norm hE (by fun_prop) ?_ (by rw [hlin]; exact hinv) ?_
      · refine Gauss.isoInv_map hE (fun O z => (O z.1, O z.2))
          (fun O => by have := iso_measurable O; fun_prop) (fun O => ?_)
          (fun O z => flipE_iso hf T S O z)
        have h2 := Measure.map_prod_map ν (stdGaussian E3) (iso_measurable O) (iso_measurable O)
        rw [hinv O, isoInv_stdGaussian O] at h2
        exact h2.symm
      · have a0 : ∀ᵐ x ∂ν, x ≠ 0 := by
          have hms : MeasurableSet {x : E3 | x ≠ 0} := (measurableSet_singleton 0).compl
          have hsm : AEMeasurable (fun x : E3 => √kT • x) (stdGaussian E3) := by fun_prop
          rw [hν, ae_map_iff hsm hms, ae_iff]
          have hsk : √kT ≠ 0 := Real.sqrt_ne_zero'.2 hk
          simpa [hsk] using stdGaussian_zero (E := E3)
        have a1 : ∀ᵐ z ∂(ν.prod (stdGaussian E3)), z.1 ≠ 0 :=
          Measure.quasiMeasurePreserving_fst.ae a0
        filter_upwards [a1] with z hz
        exact flipE_norm hf T S hz
    have hc1 := canonical_one hk.le
    have hc2 : (normals (Fin 3)).map (WithLp.toLp 2) = stdGaussian E3 := map_pi_eq_stdGaussian
    have h2 := Measure.map_prod_map (canonical kT (fun _ : Fin 3 => (1 : ℝ))) (normals (Fin 3))
      hto hto
    rw [hc1, hc2] at h2
    have h3 : (((canonical kT (fun _ : Fin 3 => (1 : ℝ))).prod (normals (Fin 3))).map
        (flipT f T S)).map (WithLp.toLp 2) = (canonical kT (fun _ : Fin 3 => (1 : ℝ))).map
          (WithLp.toLp 2 : (Fin 3 → ℝ) → E3) := by
      rw [hc1, Measure.map_map hto (flipT_measurable f T S), ← hν, ← hEl, hν, h2,
        Measure.map_map hE (by fun_prop)]
      rfl
    have h4 := congrArg (Measure.map (WithLp.ofLp : E3 → (Fin 3 → ℝ))) h3
    rw [Measure.map_map hof hto, Measure.map_map hof hto] at h4
    have hid : (WithLp.ofLp : E3 → (Fin 3 → ℝ)) ∘ (WithLp.toLp 2) = id := rfl
    rw [hid, Measure.map_id, Measure.map_id] at h4
    exact h4
  · have hk1 : ∀ i : Fin 3, (kT * (1 : ℝ)).toNNReal = kT.toNNReal := by simp
    cases f
    · simp at hf
    · rw [show flipT .hard T S = fun z k => hard1 T S (z.1 k, z.2 k) from
        funext (flipT_hard T S)]
      unfold canonical normals
      have hsg := sgn_measurable
      rw [pi_prod_map (fun _ : Fin 3 => gaussianReal 0 (kT * 1).toNNReal)
        (fun _ => gaussianReal 0 1) (f := fun _ w => hard1 T S w) (fun i => by unfold hard1; fun_prop)]
      congr 1
      funext i
      simpa using hard1_law hk h
    · simp at hf
    · rw [show flipT .none T S = fun z k => T * z.1 k + S * z.2 k from funext (flipT_none T S)]
      unfold canonical normals
      rw [pi_prod_map (fun _ : Fin 3 => gaussianReal 0 (kT * 1).toNNReal)
        (fun _ => gaussianReal 0 1) (f := fun _ (w : ℝ × ℝ) => T * w.1 + S * w.2)
        (fun i => by fun_prop)]
      congr 1
      funext i
      rw [gaussian_comb]
      congr 2
      rw [Real.coe_toNNReal _ (by linarith)]
      linarith

/-! ### All atoms -/

/-- The momenta of one atom after the step. -/
noncomputable def fflAtom (f : Flip) (m : Fin 3 → ℝ) (T S : ℝ) (w : (Fin 3 → ℝ) × (Fin 3 → ℝ)) :
    Fin 3 → ℝ :=
  fun k => flipT f T S (fun k => w.1 k / √(m k), w.2) k * √(m k)

theorem fflAtom_measurable (f : Flip) (m : Fin 3 → ℝ) (T S : ℝ) : Measurable (fflAtom f m T S) := by
  have h := (flipT_measurable f T S).comp
    (show Measurable fun w : (Fin 3 → ℝ) × (Fin 3 → ℝ) => ((fun k => w.1 k / √(m k)), w.2) by fun_prop)
  unfold fflAtom
  rw [measurable_pi_iff]
  intro k
  exact ((measurable_pi_iff.1 h) k).mul_const _

theorem canonical_scale {ι : Type} [Fintype ι] {m : ι → ℝ} (hm : ∀ i, 0 < m i) {kT : ℝ}
    (hk : 0 ≤ kT) :
    (canonical kT m).map (fun p i => p i / √(m i)) = canonical kT (fun _ => 1) := by
  unfold canonical
  have h := Measure.pi_map_pi (μ := fun i => gaussianReal 0 (kT * m i).toNNReal)
    (f := fun i x => x / √(m i)) (fun i => by fun_prop)
  rw [h]
  congr 1
  funext i
  rw [gaussianReal_map_div_const]
  congr 1
  · simp
  · ext
    have := hm i
    have h2 : 0 ≤ kT * m i := by positivity
    simp only [NNReal.coe_div, Real.coe_toNNReal _ h2, NNReal.coe_mk, mul_one, Real.sq_sqrt this.le,
      Real.coe_toNNReal _ hk]
    field_simp

theorem canonical_unscale {ι : Type} [Fintype ι] {m : ι → ℝ} (hm : ∀ i, 0 < m i) {kT : ℝ}
    (hk : 0 ≤ kT) :
    (canonical kT (fun _ : ι => (1 : ℝ))).map (fun p i => p i * √(m i)) = canonical kT m := by
  rw [← canonical_scale hm hk, Measure.map_map (by fun_prop) (by fun_prop)]
  have : ((fun (p : ι → ℝ) i => p i * √(m i)) ∘ fun p i => p i / √(m i)) = id := by
    funext p i
    have := Real.sqrt_ne_zero'.2 (hm i)
    simp [this]
  rw [this, Measure.map_id]

theorem fflAtom_law (f : Flip) {m : Fin 3 → ℝ} (hm : ∀ k, 0 < m k) {kT T S : ℝ} (hk : 0 < kT)
    (h : T ^ 2 * kT + S ^ 2 = kT) :
    ((canonical kT m).prod (normals (Fin 3))).map (fflAtom f m T S) = canonical kT m := by
  have h1 := Measure.map_prod_map (canonical kT m) (normals (Fin 3))
    (f := fun (p : Fin 3 → ℝ) i => p i / √(m i)) (g := id) (by fun_prop) measurable_id
  rw [Measure.map_id, canonical_scale hm hk.le] at h1
  have hs : Measurable fun (p : Fin 3 → ℝ) i => p i * √(m i) := by fun_prop
  have h2 : fflAtom f m T S = (fun (p : Fin 3 → ℝ) i => p i * √(m i)) ∘ flipT f T S ∘
      Prod.map (fun (p : Fin 3 → ℝ) i => p i / √(m i)) id := rfl
  rw [h2, ← Measure.map_map hs ((flipT_measurable f T S).comp (by fun_prop)),
    ← Measure.map_map (flipT_measurable f T S) (by fun_prop), ← h1, flipT_law f hk h,
    canonical_unscale hm hk.le]

/-- The momenta after a step of the thermostat (zero where the step gives NaN). -/
noncomputable def fflP {N : ℕ} (f : Flip) (m : Fin N → Fin 3 → ℝ) (T S e : ℝ)
    (z : (Fin N → Fin 3 → ℝ) × (Fin N → Fin 3 → ℝ)) : Fin N → Fin 3 → ℝ :=
  ((ffl f m T S z.2 z.1 e).map Prod.fst).getD 0

/-- In the canonical distribution the step gives numbers, with probability one. -/
theorem ffl_ae {N : ℕ} (f : Flip) {m : Fin N → Fin 3 → ℝ} (hm : ∀ a k, 0 < m a k) {kT : ℝ}
    (hk : 0 < kT) (T S e : ℝ) :
    ∀ᵐ z ∂((Measure.pi fun a => canonical kT (m a)).prod (Measure.pi fun _ : Fin N => normals (Fin 3))),
      (ffl f m T S z.2 z.1 e).isSome := by
  have a0 : ∀ a, ∀ᵐ z ∂((Measure.pi fun a => canonical kT (m a)).prod
      (Measure.pi fun _ : Fin N => normals (Fin 3))), z.1 a 0 ≠ 0 := by
    intro a
    have hp : ∀ a, IsProbabilityMeasure (canonical kT (m a)) := fun a => by
      unfold canonical; infer_instance
    have hn : IsProbabilityMeasure (normals (Fin 3)) := by unfold normals; infer_instance
    have h1 : ∀ᵐ p ∂(Measure.pi fun a => canonical kT (m a)), p a 0 ≠ 0 := by
      have q1 : Measure.QuasiMeasurePreserving (Function.eval a)
          (Measure.pi fun a => canonical kT (m a)) (canonical kT (m a)) :=
        (measurePreserving_eval _ a).quasiMeasurePreserving
      have q2 : Measure.QuasiMeasurePreserving (Function.eval (0 : Fin 3)) (canonical kT (m a))
          (gaussianReal 0 (kT * m a 0).toNNReal) :=
        (measurePreserving_eval (fun i => gaussianReal 0 (kT * m a i).toNNReal)
          0).quasiMeasurePreserving
      have hv : (kT * m a 0).toNNReal ≠ 0 := by
        have := mul_pos hk (hm a 0)
        simpa using this
      exact q1.ae (q2.ae (gaussianReal_ne_zero hv))
    exact Measure.quasiMeasurePreserving_fst.ae h1
  filter_upwards [ae_all_iff.2 a0] with z hz
  have hd : ∀ a, dot (fun k => z.1 a k / √(m a k)) (fun k => z.1 a k / √(m a k)) ≠ 0 := by
    intro a h0
    unfold dot at h0
    rw [Finset.sum_eq_zero_iff_of_nonneg (fun i _ => mul_self_nonneg _)] at h0
    have := h0 0 (Finset.mem_univ _)
    have h3 := Real.sqrt_ne_zero'.2 (hm a 0)
    simp [hz a, h3] at this
  have hr : ∀ a, (flipRow f (fun k => z.1 a k / √(m a k))
      (fun k => z.1 a k / √(m a k) * T + S * z.2 a k)).isSome := by
    intro a
    cases f <;> simp [flipRow, hd a]
  unfold ffl
  simp [hr]

/-- **C47 (fast-forward Langevin).**  Whatever the flip, if the momenta are distributed canonically
before the step and the random numbers are independent standard normal numbers, then the momenta
after the step are distributed canonically. -/
theorem ffl_canonical {N : ℕ} (f : Flip) {m : Fin N → Fin 3 → ℝ} (hm : ∀ a k, 0 < m a k)
    {kb temp dt tau : ℝ} (hk : 0 < kb) (ht : 0 < temp) (hd : 0 ≤ dt) (htau : 0 < tau) (e : ℝ) :
    ((Measure.pi fun a => canonical (kb * temp) (m a)).prod
        (Measure.pi fun _ : Fin N => normals (Fin 3))).map
        (fflP f m (expT dt tau) (lanS kb temp (expT dt tau)) e)
      = Measure.pi fun a => canonical (kb * temp) (m a) := by
  have hkT := mul_pos hk ht
  have hfd := fluctuation_dissipation hkT.le (expT_sq_le hd htau)
  have hp : ∀ a, IsProbabilityMeasure (canonical (kb * temp) (m a)) := fun a => by
    unfold canonical; infer_instance
  have hn : IsProbabilityMeasure (normals (Fin 3)) := by unfold normals; infer_instance
  have h := pi_prod_map (fun a => canonical (kb * temp) (m a)) (fun _ : Fin N => normals (Fin 3))
    (f := fun a => fflAtom f (m a) (expT dt tau) (lanS kb temp (expT dt tau)))
    (fun a => fflAtom_measurable f (m a) _ _)
  simp only [fflAtom_law f (hm _) hkT hfd] at h
  refine (Measure.map_congr ?_).trans h
  filter_upwards [ffl_ae f hm hkT (expT dt tau) (lanS kb temp (expT dt tau)) e] with z hz
  obtain ⟨r, hr⟩ := Option.isSome_iff_exists.1 hz
  unfold fflP
  rw [hr]
  simp only [Option.map_some, Option.getD_some]
  unfold ffl at hr
  simp only at hr
  split at hr
  · rw [← Option.some.inj hr]
    rfl
  · exact absurd hr (by simp)

/-- Two atoms of different masses, the default flip. -/
example : ((Measure.pi fun a => canonical (2 * 3) ((![fun _ => 1, fun _ => 5] : Fin 2 → Fin 3 → ℝ) a)).prod
        (Measure.pi fun _ : Fin 2 => normals (Fin 3))).map
        (fflP .rescale ![fun _ => 1, fun _ => 5] (expT 1 4) (lanS 2 3 (expT 1 4)) 0)
      = Measure.pi fun a => canonical (2 * 3) ((![fun _ => 1, fun _ => 5] : Fin 2 → Fin 3 → ℝ) a) :=
  ffl_canonical .rescale (by intro a k; fin_cases a <;> norm_num) (by norm_num) (by norm_num)
    (by norm_num) (by norm_num) 0

end Verif.Thermo
