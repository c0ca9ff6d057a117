import Verif.Props.C109_InitPath
import Mathlib.MeasureTheory.Integral.Bochner.Basic
import Mathlib.Probability.Distributions.Uniform
import Mathlib.Probability.ProbabilityMassFunction.Integrals

/-!
# C112: thermal momenta have the requested temperature
-/

namespace Verif.Init

open Finset MeasureTheory

/-! ## Specification -/

/-- The normal mode `k` of coordinate `c` of the momenta `p`. -/
noncomputable def mode (nb na : ℕ) (p : ℕ → ℕ → ℝ) (k : Fin nb) (c : Fin (3 * na)) : ℝ :=
  Nm.b2nm [] (fun (a : Fin nb) (d : Fin (3 * na)) => p a d) k c

/-- White noise of unit variance for `nb` beads and `m` coordinates. -/
def White {Ω : Type} [MeasurableSpace Ω] (μ : Measure Ω) (g : Ω → ℕ → ℕ → ℝ) (nb m : ℕ) : Prop :=
  ∀ k l c d, k < nb → l < nb → c < m → d < m →
    Integrable (fun w => g w k c * g w l d) μ ∧
      ∫ w, g w k c * g w l d ∂μ = if k = l ∧ c = d then 1 else 0

/-! ## The normal modes of the result -/

theorem mode_col {nb na : ℕ} (p : ℕ → ℕ → ℝ) (k : Fin nb) (c : Fin (3 * na)) :
    mode nb na p k c = Nm.apply (Nm.mkNm nb) (fun j => p j c) k := by
  unfold mode Nm.b2nm
  rw [if_neg (by simp)]

theorem mode_ofModes {nb na : ℕ} (pnm : ℕ → ℕ → ℝ) (k : Fin nb) (c : Fin (3 * na)) :
    mode nb na (ofModes nb na pnm) k c = pnm k c := by
  have e : (fun (a : Fin nb) (d : Fin (3 * na)) => ofModes nb na pnm a d)
      = Nm.nm2b [] (fun (a : Fin nb) (d : Fin (3 * na)) => pnm a d) := by
    funext a d
    unfold ofModes
    rw [dif_pos ⟨a.2, d.2⟩]
  unfold mode
  rw [e, Nm.b2nm_nm2b]

/-- The normal modes of the momenta that are drawn: the numbers of the generator times the square
root of the dynamical mass and of the thermal energy.  The columns of a single atom use the first
three columns of the generator. -/
theorem thermal_modes {x : Ctx} {v : Instr} {s s' : Sim} (h : doThermal x v s = .ok s') :
    ∃ T, thermalTemp x v = .ok T ∧ s'.beads.nb = s.beads.nb ∧ s'.beads.na = s.beads.na ∧
      s'.beads.m = s.beads.m ∧
      (v.index < 0 → ∀ k c, mode s.beads.nb s.beads.na s'.beads.p k c
        = x.gauss s.draws k c * √(s.beads.m (c / 3) * x.factor k) * √(s.beads.nb * T * x.kB)) ∧
      (0 ≤ v.index → v.index.toNat < s.beads.na ∧
        ∀ k (c : Fin (3 * s.beads.na)), (c : ℕ) / 3 = v.index.toNat →
        mode s.beads.nb s.beads.na s'.beads.p k c = x.gauss s.draws k (c % 3)
          * √(s.beads.m (c / 3) * x.factor k) * √(s.beads.nb * T * x.kB)) := by
  unfold doThermal at h
  by_cases h0 : s.beads.na = 0
  · rw [if_pos h0] at h; cases h
  rw [if_neg h0] at h
  by_cases hm : (!s.fmass) = true
  · rw [if_pos hm] at h; cases h
  rw [if_neg hm] at h
  obtain ⟨T, hT, h⟩ := bind_ok.1 h
  by_cases hb : 0 ≤ v.bead
  · rw [if_pos hb] at h; cases h
  rw [if_neg hb] at h
  refine ⟨T, hT, ?_⟩
  by_cases hx : 0 ≤ v.index
  · rw [if_pos hx] at h
    by_cases hi : s.beads.na ≤ v.index.toNat
    · rw [if_pos hi] at h; cases h
    rw [if_neg hi] at h
    obtain rfl := Except.ok.inj h
    refine ⟨rfl, rfl, rfl, fun g => absurd hx (by omega), fun _ => ⟨by omega, fun k c hc => ?_⟩⟩
    rw [mode_col]
    simp only [hc, if_true]
    have hc3 : (c : ℕ) % 3 < 3 * 1 := by omega
    have := mode_col (na := 1) (ofModes s.beads.nb 1 fun k c => x.gauss s.draws k c *
      √(s.beads.m v.index.toNat * x.factor k) * √(s.beads.nb * T * x.kB)) k ⟨c % 3, hc3⟩
    rw [mode_ofModes] at this
    exact this.symm
  · rw [if_neg hx] at h
    obtain rfl := Except.ok.inj h
    refine ⟨rfl, rfl, rfl, fun _ k c => ?_, fun g => absurd g hx⟩
    exact mode_ofModes (fun k c => x.gauss s.draws k c * √(s.beads.m (c / 3) * x.factor k)
      * √(s.beads.nb * T * x.kB)) k c

/-! ## Averages -/

variable {Ω : Type} [MeasurableSpace Ω] {μ : Measure Ω}

/-- **C112.** Thermal momenta of the whole system: different normal modes, atoms and directions
are uncorrelated, and the mean square of each is its dynamical mass times the thermal energy of
the path, `nb * kB * T`. -/
theorem thermal_covariance {x : Ctx} {G : Ω → ℕ → ℕ → ℕ → ℝ} {v : Instr} {s : Sim} {s' : Ω → Sim}
    (h : ∀ w, doThermal { x with gauss := G w } v s = .ok (s' w)) (hv : v.index < 0)
    (hG : White μ (fun w => G w s.draws) s.beads.nb (3 * s.beads.na)) {T : ℝ}
    (hT : thermalTemp x v = .ok T) (hT0 : 0 ≤ T) (hk : 0 ≤ x.kB)
    (hm : ∀ a, 0 ≤ s.beads.m a) (hf : ∀ k, 0 ≤ x.factor k) (k l : Fin s.beads.nb)
    (c d : Fin (3 * s.beads.na)) :
    Integrable (fun w => mode s.beads.nb s.beads.na (s' w).beads.p k c
        * mode s.beads.nb s.beads.na (s' w).beads.p l d) μ ∧
      ∫ w, mode s.beads.nb s.beads.na (s' w).beads.p k c
        * mode s.beads.nb s.beads.na (s' w).beads.p l d ∂μ
        = if k = l ∧ c = d then s.beads.m (c / 3) * x.factor k * (s.beads.nb * x.kB * T) else 0 := by
  have e : ∀ w (k : Fin s.beads.nb) (c : Fin (3 * s.beads.na)),
      mode s.beads.nb s.beads.na (s' w).beads.p k c = G w s.draws k c *
        (√(s.beads.m (c / 3) * x.factor k) * √(s.beads.nb * T * x.kB)) := by
    intro w k c
    obtain ⟨T', hT', -, -, -, h1, -⟩ := thermal_modes (h w)
    obtain rfl : T = T' := Except.ok.inj (hT.symm.trans hT')
    rw [h1 hv, mul_assoc]
  simp only [e]
  obtain ⟨hi, he⟩ := hG k l c d k.2 l.2 c.2 d.2
  have e2 : ∀ w, G w s.draws k c * (√(s.beads.m (c / 3) * x.factor k) * √(s.beads.nb * T * x.kB)) *
      (G w s.draws l d * (√(s.beads.m (d / 3) * x.factor l) * √(s.beads.nb * T * x.kB)))
      = (√(s.beads.m (c / 3) * x.factor k) * √(s.beads.m (d / 3) * x.factor l) *
        (s.beads.nb * T * x.kB)) * (G w s.draws k c * G w s.draws l d) := by
    intro w
    have := Real.mul_self_sqrt (show 0 ≤ s.beads.nb * T * x.kB by positivity)
    calc _ = (√(s.beads.m (c / 3) * x.factor k) * √(s.beads.m (d / 3) * x.factor l) *
          (√(s.beads.nb * T * x.kB) * √(s.beads.nb * T * x.kB))) *
          (G w s.draws k c * G w s.draws l d) := by ring
      _ = _ := by rw [this]
  simp only [e2]
  refine ⟨hi.const_mul _, ?_⟩
  rw [integral_const_mul, he]
  by_cases hkl : k = l ∧ c = d
  · obtain ⟨rfl, rfl⟩ := hkl
    rw [if_pos ⟨rfl, rfl⟩, if_pos ⟨rfl, rfl⟩, Real.mul_self_sqrt (mul_nonneg (hm _) (hf _))]
    ring
  · rw [if_neg hkl, if_neg, mul_zero]
    rintro ⟨h1, h2⟩
    exact hkl ⟨Fin.ext h1, Fin.ext h2⟩

/-- **C112.** The same for a single atom; the momenta of the other atoms are left as they were
(`thermal_set`). -/
theorem thermal_atom_covariance {x : Ctx} {G : Ω → ℕ → ℕ → ℕ → ℝ} {v : Instr} {s : Sim}
    {s' : Ω → Sim} (h : ∀ w, doThermal { x with gauss := G w } v s = .ok (s' w)) (hv : 0 ≤ v.index)
    (hG : White μ (fun w => G w s.draws) s.beads.nb 3) {T : ℝ}
    (hT : thermalTemp x v = .ok T) (hT0 : 0 ≤ T) (hk : 0 ≤ x.kB)
    (hm : ∀ a, 0 ≤ s.beads.m a) (hf : ∀ k, 0 ≤ x.factor k) (k l : Fin s.beads.nb)
    (c d : Fin (3 * s.beads.na)) (hc : (c : ℕ) / 3 = v.index.toNat)
    (hd : (d : ℕ) / 3 = v.index.toNat) :
    Integrable (fun w => mode s.beads.nb s.beads.na (s' w).beads.p k c
        * mode s.beads.nb s.beads.na (s' w).beads.p l d) μ ∧
      ∫ w, mode s.beads.nb s.beads.na (s' w).beads.p k c
        * mode s.beads.nb s.beads.na (s' w).beads.p l d ∂μ
        = if k = l ∧ c = d then s.beads.m (c / 3) * x.factor k * (s.beads.nb * x.kB * T) else 0 := by
  have e : ∀ w (k : Fin s.beads.nb) (c : Fin (3 * s.beads.na)), (c : ℕ) / 3 = v.index.toNat →
      mode s.beads.nb s.beads.na (s' w).beads.p k c = G w s.draws k (c % 3) *
        (√(s.beads.m (c / 3) * x.factor k) * √(s.beads.nb * T * x.kB)) := by
    intro w k c hc
    obtain ⟨T', hT', -, -, -, -, h1⟩ := thermal_modes (h w)
    obtain rfl : T = T' := Except.ok.inj (hT.symm.trans hT')
    rw [(h1 hv).2 k c hc, mul_assoc]
  simp only [fun w k => e w k c hc, fun w k => e w k d hd]
  obtain ⟨hi, he⟩ := hG k l (c % 3) (d % 3) k.2 l.2 (by omega) (by omega)
  have e2 : ∀ w, G w s.draws k (c % 3) *
      (√(s.beads.m (c / 3) * x.factor k) * √(s.beads.nb * T * x.kB)) *
      (G w s.draws l (d % 3) * (√(s.beads.m (d / 3) * x.factor l) * √(s.beads.nb * T * x.kB)))
      = (√(s.beads.m (c / 3) * x.factor k) * √(s.beads.m (d / 3) * x.factor l) *
        (s.beads.nb * T * x.kB)) * (G w s.draws k (c % 3) * G w s.draws l (d % 3)) := by
    intro w
    have := Real.mul_self_sqrt (show 0 ≤ s.beads.nb * T * x.kB by positivity)
    calc _ = (√(s.beads.m (c / 3) * x.factor k) * √(s.beads.m (d / 3) * x.factor l) *
          (√(s.beads.nb * T * x.kB) * √(s.beads.nb * T * x.kB))) *
          (G w s.draws k (c % 3) * G w s.draws l (d % 3)) := by ring
      _ = _ := by rw [this]
  simp only [e2]
  refine ⟨hi.const_mul _, ?_⟩
  rw [integral_const_mul, he]
  by_cases hkl : k = l ∧ c = d
  · obtain ⟨rfl, rfl⟩ := hkl
    rw [if_pos ⟨rfl, rfl⟩, if_pos ⟨rfl, rfl⟩, Real.mul_self_sqrt (mul_nonneg (hm _) (hf _))]
    ring
  · rw [if_neg hkl, if_neg, mul_zero]
    rintro ⟨h1, h2⟩
    refine hkl ⟨Fin.ext h1, Fin.ext ?_⟩
    omega

/-- The sum of the squares of a column is the one of its normal modes. -/
theorem sq_modes (nb na : ℕ) (p : ℕ → ℕ → ℝ) (c : Fin (3 * na)) :
    ∑ i ∈ range nb, p i c ^ 2 = ∑ k, mode nb na p k c ^ 2 := by
  have := Nm.scalar_product_kept [] (fun (a : Fin nb) (d : Fin (3 * na)) => p a d)
    (fun (a : Fin nb) (d : Fin (3 * na)) => p a d) c
  rw [Finset.sum_range]
  simp only [pow_two]
  exact this.symm

/-- **C112.** With physical masses for all the normal modes the average of the kinetic
temperature of the drawn momenta is the requested one. -/
theorem thermal_temperature [IsProbabilityMeasure μ] {x : Ctx} {G : Ω → ℕ → ℕ → ℕ → ℝ} {v : Instr}
    {s : Sim} {s' : Ω → Sim} (h : ∀ w, doThermal { x with gauss := G w } v s = .ok (s' w))
    (hv : v.index < 0) (hG : White μ (fun w => G w s.draws) s.beads.nb (3 * s.beads.na)) {T : ℝ}
    (hT : thermalTemp x v = .ok T) (hT0 : 0 ≤ T) (hk : 0 < x.kB)
    (hm : ∀ a, 0 < s.beads.m a) (hf : ∀ k, x.factor k = 1) (hb : 0 < s.beads.nb)
    (ha : 0 < s.beads.na) :
    ∫ w, temperature (s' w).beads.nb (s' w).beads.na (s' w).beads.m (s' w).beads.p / x.kB ∂μ
      = T := by
  have hcov := fun k c => thermal_covariance h hv hG hT hT0 hk.le (fun a => (hm a).le)
    (fun k => by rw [hf k]; norm_num) k k c c
  have e : ∀ w, temperature (s' w).beads.nb (s' w).beads.na (s' w).beads.m (s' w).beads.p / x.kB
      = (∑ c : Fin (3 * s.beads.na), ∑ k : Fin s.beads.nb,
        (1 / (2 * s.beads.m (c / 3))) * (mode s.beads.nb s.beads.na (s' w).beads.p k c
          * mode s.beads.nb s.beads.na (s' w).beads.p k c)) *
        (2 / (3 * s.beads.na * s.beads.nb * s.beads.nb) / x.kB) := by
    intro w
    obtain ⟨-, -, h1, h2, h3, -⟩ := thermal_modes (h w)
    rw [h1, h2, h3, temp_cols, Finset.sum_range]
    simp only [sq_modes]
    have : ∀ c : Fin (3 * s.beads.na), (∑ k, mode s.beads.nb s.beads.na (s' w).beads.p k c ^ 2) /
        (2 * s.beads.m (c / 3)) = ∑ k : Fin s.beads.nb,
        (1 / (2 * s.beads.m (c / 3))) * (mode s.beads.nb s.beads.na (s' w).beads.p k c
          * mode s.beads.nb s.beads.na (s' w).beads.p k c) := by
      intro c
      rw [← Finset.mul_sum]
      simp only [pow_two]
      ring
    rw [sum_congr rfl fun c _ => this c]
    ring
  simp only [e]
  rw [integral_mul_const, integral_finsetSum _ fun c _ => integrable_finsetSum _ fun k _ =>
    (hcov k c).1.const_mul _]
  have e2 : ∀ c : Fin (3 * s.beads.na), ∫ w, ∑ k : Fin s.beads.nb,
      (1 / (2 * s.beads.m (c / 3))) * (mode s.beads.nb s.beads.na (s' w).beads.p k c
          * mode s.beads.nb s.beads.na (s' w).beads.p k c) ∂μ
      = s.beads.nb * (s.beads.nb * x.kB * T / 2) := by
    intro c
    rw [integral_finsetSum _ fun k _ => (hcov k c).1.const_mul _]
    have : ∀ k ∈ (univ : Finset (Fin s.beads.nb)), ∫ w, (1 / (2 * s.beads.m (c / 3))) *
        (mode s.beads.nb s.beads.na (s' w).beads.p k c
          * mode s.beads.nb s.beads.na (s' w).beads.p k c) ∂μ = s.beads.nb * x.kB * T / 2 := by
      intro k _
      rw [integral_const_mul, (hcov k c).2, if_pos ⟨rfl, rfl⟩, hf]
      have := (hm (c / 3)).ne'
      field_simp
    rw [sum_congr rfl this]
    simp
  rw [sum_congr rfl fun c _ => e2 c]
  simp only [sum_const, card_univ, Fintype.card_fin, nsmul_eq_mul, Nat.cast_mul, Nat.cast_ofNat]
  have h1 : (s.beads.nb : ℝ) ≠ 0 := by exact_mod_cast hb.ne'
  have h2 : (s.beads.na : ℝ) ≠ 0 := by exact_mod_cast ha.ne'
  have h3 := hk.ne'
  field_simp

/-- **C112.** A positive temperature is converted and used; any other one stands for the
temperature of the ensemble.  A bead cannot be selected, and atoms and masses must be known. -/
theorem thermal_request {x : Ctx} {v : Instr} {y u : ℝ} (hv : v.value = .num y)
    (hu : x.env.conv "temperature" v.units = .ok u) :
    (0 < y * u → thermalTemp x v = .ok (y * u)) ∧ (y * u ≤ 0 → thermalTemp x v = .ok x.temp) ∧
      ∀ s s', doThermal x v s = .ok s' → v.bead < 0 ∧ 0 < s.beads.na ∧ s.fmass = true := by
  have e : thermalTemp x v = .ok (if y * u ≤ 0 then x.temp else y * u) := by
    unfold thermalTemp
    rw [hu, hv]; rfl
  refine ⟨fun h => by rw [e, if_neg (by linarith)], fun h => by rw [e, if_pos h], fun s s' h => ?_⟩
  unfold doThermal at h
  by_cases h0 : s.beads.na = 0
  · rw [if_pos h0] at h; cases h
  rw [if_neg h0] at h
  by_cases hm : (!s.fmass) = true
  · rw [if_pos hm] at h; cases h
  rw [if_neg hm, e] at h
  by_cases hb : 0 ≤ v.bead
  · simp only at h
    obtain ⟨T, -, h⟩ := bind_ok.1 h
    rw [if_pos hb] at h; cases h
  exact ⟨by omega, by omega, by simpa using hm⟩

/-! ## The hypotheses are met -/

/-- White noise on a finite space: one outcome for each number that is asked for. -/
theorem white_exists (n m : ℕ) : ∃ g : Fin (n + 1) × Fin (m + 1) → ℕ → ℕ → ℝ,
    White (PMF.uniformOfFintype (Fin (n + 1) × Fin (m + 1))).toMeasure g (n + 1) (m + 1) := by
  refine ⟨fun w k c => if (w.1 : ℕ) = k ∧ (w.2 : ℕ) = c then √(((n + 1) * (m + 1) : ℕ) : ℝ) else 0,
    fun k l c d hk hl hc hd => ⟨Integrable.of_finite, ?_⟩⟩
  rw [PMF.integral_eq_sum]
  simp only [PMF.uniformOfFintype_apply, Fintype.card_prod, Fintype.card_fin, ENNReal.toReal_inv,
    ENNReal.toReal_natCast, smul_eq_mul]
  rw [← Finset.mul_sum]
  have hs : √(((n + 1) * (m + 1) : ℕ) : ℝ) * √(((n + 1) * (m + 1) : ℕ) : ℝ)
      = (((n + 1) * (m + 1) : ℕ) : ℝ) := Real.mul_self_sqrt (by positivity)
  have h0 : (((n + 1) * (m + 1) : ℕ) : ℝ) ≠ 0 := by positivity
  by_cases h : k = l ∧ c = d
  · obtain ⟨rfl, rfl⟩ := h
    rw [if_pos ⟨rfl, rfl⟩, Finset.sum_eq_single (⟨k, hk⟩, ⟨c, hc⟩)]
    · simp only [and_self, if_true, hs]
      exact inv_mul_cancel₀ h0
    · rintro ⟨a, b⟩ - hne
      rw [if_neg, zero_mul]
      rintro ⟨h1, h2⟩
      exact hne (Prod.ext (Fin.ext h1) (Fin.ext h2))
    · intro g
      exact absurd (mem_univ _) g
  · rw [if_neg h, Finset.sum_eq_zero, mul_zero]
    rintro ⟨a, b⟩ -
    by_cases h1 : (a : ℕ) = k ∧ (b : ℕ) = c
    · rw [if_neg (c := (a : ℕ) = l ∧ (b : ℕ) = d), mul_zero]
      rintro ⟨h2, h3⟩
      exact h ⟨h1.1.symm.trans h2, h1.2.symm.trans h3⟩
    · rw [if_neg h1, zero_mul]

/-- Eight beads of one atom at a temperature of 300 in units of two. -/
example : ∃ (Ω : Type) (_ : MeasurableSpace Ω) (μ : Measure Ω) (G : Ω → ℕ → ℕ → ℕ → ℝ)
    (s' : Ω → Sim),
    (∀ w, doThermal { eight with gauss := G w } ⟨.num 300, "thermal", "", -1, -1⟩ small
      = .ok (s' w)) ∧
    ∫ w, temperature (s' w).beads.nb (s' w).beads.na (s' w).beads.m (s' w).beads.p / 1 ∂μ = 600 := by
  obtain ⟨g, hg⟩ := white_exists 7 2
  refine ⟨_, inferInstance, (PMF.uniformOfFintype (Fin (7 + 1) × Fin (2 + 1))).toMeasure,
    fun w _ => g w, _, fun w => rfl, ?_⟩
  exact thermal_temperature (x := eight) (v := ⟨.num 300, "thermal", "", -1, -1⟩) (s := small)
    (G := fun w _ => g w) (fun w => rfl) (by decide) hg
    ((thermal_request (x := eight) (y := 300) (u := 2) rfl rfl).1 (by norm_num) |>.trans
      (by norm_num)) (by norm_num) (by norm_num [eight]) (fun a => by norm_num [small])
    (fun k => rfl) (by decide) (by decide)

end Verif.Init
